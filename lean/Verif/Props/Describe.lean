import Verif.Lemmas.DescribeSetup
import Verif.Lemmas.OneAtom
import Verif.Props.Magnon
import Verif.Props.HamNotation

/-!
# Magnons depend on the classical energy only (C71), and not on names, cells and axes (C72)
-/

set_option autoImplicit false
set_option linter.unusedSectionVars false

namespace Magnopy

open PyDict Matrix Complex MagnonObj

variable {order order' : List Atom → List Atom} {lat lat' : M3 ℝ} {pos pos' : Atom → V3 ℝ}
  {spinVec spinVec' : Atom → Option (V3 ℝ)} {s s' : St ℝ}

theorem isRotation_one : IsRotation 1 := ⟨by simp, by simp⟩

theorem Cell.rel_zero : (0 : Cell).rel = 0 := by
  funext i; fin_cases i <;> simp [Cell.rel]

/-- The same lattice vectors and axes of space, other cells. -/
theorem moves_shift {f : Description} {l : List Atom} (h1 : f.space = 1) (h2 : f.cells = .refl _) (h3 : lat' = lat)
    (h4 : ∀ a ∈ l, pos' (f.name a) = pos a - (f.shift a).rel)
    (h5 : ∀ a ∈ l, spinVec' (f.name a) = (spinVec a).map fun v => f.turn *ᵥ v) : f.Moves l lat lat' pos pos' spinVec spinVec' :=
  ⟨fun R => by rw [h1, h2, h3, one_mulVec]; rfl, ⟨0, fun a ha => by rw [h1, h3, one_mulVec, h4 a ha, sub_add_cancel, add_zero]⟩, h5⟩

/-- The two objects, if the couplings correspond to each other. -/
theorem same_objects {o o' : MagnonObj} {t t' : St ℝ} {items items' : List (Bond × ℕ)} (hord : ∀ l, (order l).Perm l)
    (hord' : ∀ l, (order' l).Perm l) {spin : Atom → ℝ} (h : ObjSpec order lat pos spinVec s o t items)
    (h' : ObjSpec order' lat pos spinVec s' o' t' items') (hat : t'.magneticAtoms order' = t.magneticAtoms order)
    (hE : ∀ (Γ : Type) [AddCommGroup Γ] [Fintype Γ] (c : Config ℝ Γ), s'.physics c spin = s.physics c spin)
    (hc : ∀ b : Bond, b.1 ∈ t.magneticAtoms order → b.2.1 ∈ t.magneticAtoms order →
      couple (likeItems t') b = couple (likeItems t) b) :
    ∃ hN : o'.N = o.N, ∀ k,
      (∀ r c, (o'.callH t'.cell k).1 (Sum.map (Fin.cast hN.symm) (Fin.cast hN.symm) r)
        (Sum.map (Fin.cast hN.symm) (Fin.cast hN.symm) c) = (o.callH t.cell k).1 r c) ∧
      ∀ (solve : ∀ n, Mat n → Option ((Fin n ⊕ Fin n → ℂ) × Mat n)) (junk : ∀ n, Mat n) (z rg im : Bool),
        (o'.omega t'.cell (solve o'.N) (junk o'.N) z rg im k).1.1 = (o.omega t.cell (solve o.N) (junk o.N) z rg im k).1.1 := by
  have hN : o'.N = o.N := by rw [h.N, h'.N, hat]
  refine ⟨hN, fun k => ?_⟩
  have hf : Description.same.Holds (t.magneticAtoms order) (t'.magneticAtoms order') spin spin s s' :=
    ⟨isRotation_one, by simp [Description.same], fun a _ b _ e => e, fun a => by simp [Description.same, hat], fun a _ => rfl,
      fun Γ _ _ c => by
        rw [hE]
        congr 1
        obtain ⟨τ, σ⟩ := c
        simp [Description.old, Description.same]⟩
  have hm : Description.same.Moves (t.magneticAtoms order) lat lat pos pos spinVec spinVec :=
    moves_shift rfl rfl rfl (fun a _ => by simp [Description.same, Cell.rel_zero]) fun a _ => by simp [Description.same]
  have he : ∀ i, atomAt o' (t'.magneticAtoms order') (finCongr hN.symm i) =
      Description.same.name (atomAt o (t.magneticAtoms order) i) := by
    intro i
    unfold atomAt
    rw [hat]
    rfl
  have hb : ∀ b : Bond, Description.same.bond b = b := by
    rintro ⟨a, b, R⟩
    simp [Description.bond, Description.same]
  have hJ := J_describe hf hm h hord h' hord' (fun b h1 h2 => by rw [hb, hc b h1 h2]; simp [Description.same]) he
  have key := h_describe (by simp [Description.same]) (sameAxes_one rfl h hord h' hord' hm he) h.C h'.C hJ k
  have hk : Description.same.space *ᵥ k = k := by simp [Description.same]
  have hone : ∀ r : Fin o.N ⊕ Fin o.N, Sum.elim (fun _ : Fin o.N => (1 : ℂ)) (star fun _ : Fin o.N => (1 : ℂ)) r = 1 := by
    rintro (r | r) <;> simp
  have hh : ∀ r c, (o'.callH t'.cell k).1 (Sum.map (Fin.cast hN.symm) (Fin.cast hN.symm) r)
      (Sum.map (Fin.cast hN.symm) (Fin.cast hN.symm) c) = (o.callH t.cell k).1 r c := by
    intro r c
    have := key r c
    rw [hk, hone, hone, one_mul, star_one, mul_one] at this
    exact this
  exact ⟨hh, fun solve junk z rg im => omegaOf_cast hN solve junk z rg im hh⟩

/-- **C71.** The magnon matrix `h(k)` and all energies that `omega` reports depend only on the classical energy: two
well-formed Hamiltonians over the same magnetic atoms, in any notations, whose energies agree for all configurations of all
supercells, have the same matrices `h(k)` for all `k`, and the same arrays of energies (with the same routines for linear
algebra), for all flags of `omega`.  In particular the notation, the order in which the parameters were added, and the
iteration order of sets do not matter. -/
theorem C71_energy (hord : ∀ l, (order l).Perm l) (hord' : ∀ l, (order' l).Perm l) (lat : M3 ℝ) (pos : Atom → V3 ℝ)
    {spin : Atom → ℝ} (hr : MagnonReady order spinVec s spin) (hr' : MagnonReady order' spinVec s' spin)
    (hs : s.OnSiteSymmetric) (hs' : s'.OnSiteSymmetric) (hat : ∀ a, a ∈ s'.magneticAtoms order' ↔ a ∈ s.magneticAtoms order)
    (hE : ∀ (Γ : Type) [AddCommGroup Γ] [Fintype Γ] (c : Config ℝ Γ), s'.physics c spin = s.physics c spin) :
    ∃ o t o' t', init order lat pos spinVec s = (.ok o, t) ∧ init order' lat pos spinVec s' = (.ok o', t') ∧
      ∃ hN : o'.N = o.N, ∀ k,
        (∀ r c, (o'.callH t'.cell k).1 (Sum.map (Fin.cast hN.symm) (Fin.cast hN.symm) r)
          (Sum.map (Fin.cast hN.symm) (Fin.cast hN.symm) c) = (o.callH t.cell k).1 r c) ∧
        ∀ (solve : ∀ n, Mat n → Option ((Fin n ⊕ Fin n → ℂ) × Mat n)) (junk : ∀ n, Mat n) (z rg im : Bool),
          (o'.omega t'.cell (solve o'.N) (junk o'.N) z rg im k).1.1 =
            (o.omega t.cell (solve o.N) (junk o.N) z rg im k).1.1 := by
  obtain ⟨o, t, items, h1, h2, h3, h4, h5⟩ := ready_setup hord lat pos hr
  obtain ⟨o', t', items', h1', h2', h3', h4', h5'⟩ := ready_setup hord' lat pos hr'
  refine ⟨o, t, o', t', h1, h1', ?_⟩
  have hl := magneticAtoms_same hord hord' hr.wf.toSound hat
  refine same_objects hord hord' h2 h2' (by rw [h4, h4', hl]) hE fun b hb1 hb2 => ?_
  have hf : Description.same.Holds (t.magneticAtoms order) (t'.magneticAtoms order') spin spin s s' :=
    ⟨isRotation_one, by simp [Description.same], fun a _ b _ e => e, fun a => by simp [Description.same, h4, h4', hat],
      fun a _ => rfl, fun Γ _ _ c => by
        rw [hE]
        congr 1
        obtain ⟨τ, σ⟩ := c
        simp [Description.old, Description.same]⟩
  have := hf.couple h2.flags h2'.flags h5 h5' h2.inv.nodup h2'.inv.nodup
    (h3.symmetric hr.complete hs (St.getNotation_ok_iff.1 h2.flags).1)
    (h3'.symmetric hr'.complete hs' (St.getNotation_ok_iff.1 h2'.flags).1) (fun p hp => h2.like_atoms hp)
    (fun a ha => (h3.spins a (magneticAtoms_mem hord h3.wf.toSound ha)).2) hb1 hb2
  have hbb : Description.same.bond b = b := by
    obtain ⟨a, b, R⟩ := b
    simp [Description.bond, Description.same]
  rw [hbb] at this
  simpa [Description.same] using this

/-- **C71, notations.** Any sequence of changes of the notation leaves the magnon matrices and the energies as they are,
also if on-site matrices are not symmetric, and for another iteration order of sets. -/
theorem C71_notation (hord : ∀ l, (order l).Perm l) (hord' : ∀ l, (order' l).Perm l) (lat : M3 ℝ) (pos : Atom → V3 ℝ)
    {spin : Atom → ℝ} (hr : MagnonReady order spinVec s spin) (ops : List (Op ℝ)) (hops : ∀ op ∈ ops, op.Renotes) :
    ∃ o t o' t', init order lat pos spinVec s = (.ok o, t) ∧ init order' lat pos spinVec (runOps ops s) = (.ok o', t') ∧
      ∃ hN : o'.N = o.N, ∀ k,
        (∀ r c, (o'.callH t'.cell k).1 (Sum.map (Fin.cast hN.symm) (Fin.cast hN.symm) r)
          (Sum.map (Fin.cast hN.symm) (Fin.cast hN.symm) c) = (o.callH t.cell k).1 r c) ∧
        ∀ (solve : ∀ n, Mat n → Option ((Fin n ⊕ Fin n → ℂ) × Mat n)) (junk : ∀ n, Mat n) (z rg im : Bool),
          (o'.omega t'.cell (solve o'.N) (junk o'.N) z rg im k).1.1 =
            (o.omega t.cell (solve o.N) (junk o.N) z rg im k).1.1 := by
  have hR := St.run_kept (Γ := Unit) (sp := spin) two_ne_zero ops hops hr.wf hr.spins hr.complete
  have hE : ∀ (Γ : Type) [AddCommGroup Γ] [Fintype Γ] (c : Config ℝ Γ), (runOps ops s).physics c spin = s.physics c spin :=
    fun Γ _ _ c => (St.run_kept (Γ := Γ) (sp := spin) two_ne_zero ops hops hr.wf hr.spins hr.complete).physics c
  have hl : (runOps ops s).magneticAtoms order' = s.magneticAtoms order := by
    refine magneticAtoms_same hord hord' hr.wf.toSound fun a => ?_
    rw [EnergyObj.mem_magneticAtoms hord', ← EnergyObj.mem_magneticAtoms hord]
    exact ⟨St.mem_of_pairE hord hR.wf hR.complete hr.complete (fun b => (hR.pairE b).symm) (fun a => (hR.siteE a).symm),
      St.mem_of_pairE hord hr.wf hr.complete hR.complete hR.pairE hR.siteE⟩
  have hr' : MagnonReady order' spinVec (runOps ops s) spin := ⟨hR.wf, hR.spins, hR.complete, by rw [hl]; exact hr.vectors⟩
  obtain ⟨o, t, items, h1, h2, h3, h4, h5⟩ := ready_setup hord lat pos hr
  obtain ⟨o', t', items', h1', h2', h3', h4', h5'⟩ := ready_setup hord' lat pos hr'
  refine ⟨o, t, o', t', h1, h1', ?_⟩
  refine same_objects hord hord' h2 h2' (by rw [h4, h4', hl]) hE fun b _ _ => ?_
  obtain ⟨e1, e2⟩ := St.values_of_pairE h3.wf h3'.wf h3.spins (by rw [h3'.atoms, hR.atoms, h3.atoms]) two_ne_zero h2.flags
    h2'.flags one_ne_zero one_ne_zero (fun b => by rw [h3'.pairE, hR.pairE, h3.pairE])
    (fun a => by rw [h3'.siteE, hR.siteE, h3.siteE])
  rw [couple_val h2.inv.nodup, couple_val h2'.inv.nodup, e1, e2]

/-- The two objects of C72. -/
theorem described {f : Description} (hord : ∀ l, (order l).Perm l) (hord' : ∀ l, (order' l).Perm l)
    {spin spin' : Atom → ℝ} (hr : MagnonReady order spinVec s spin) (hr' : MagnonReady order' spinVec' s' spin')
    (hs : s.OnSiteSymmetric) (hs' : s'.OnSiteSymmetric)
    (hf : f.Holds (s.magneticAtoms order) (s'.magneticAtoms order') spin spin' s s')
    (hm : f.Moves (s.magneticAtoms order) lat lat' pos pos' spinVec spinVec')
    (ha : f.turn = 1 ∨ ∀ a ∈ s.magneticAtoms order, ∀ v, spinVec a = some v → v ≠ 0 ∧ OwnAxis v ∧ OwnAxis (f.turn *ᵥ v)) :
    ∃ o t o' t', init order lat pos spinVec s = (.ok o, t) ∧ init order' lat' pos' spinVec' s' = (.ok o', t') ∧
      ∃ (e : Fin o.N ≃ Fin o'.N) (w : Fin o.N ⊕ Fin o.N → ℂ), (∀ i, w i * star (w i) = 1) ∧
        (∀ k, (o.callH t.cell k).1.IsHermitian) ∧
        ∀ k r c, (o'.callH t'.cell (f.space *ᵥ k)).1 (Sum.map e e r) (Sum.map e e c) =
          w r * (o.callH t.cell k).1 r c * star (w c) := by
  obtain ⟨o, t, items, h1, h2, h3, h4, h5⟩ := ready_setup hord lat pos hr
  obtain ⟨o', t', items', h1', h2', h3', h4', h5'⟩ := ready_setup hord' lat' pos' hr'
  rw [← h4] at hf hm ha
  rw [← h4'] at hf
  have hsym := h3.symmetric hr.complete hs (St.getNotation_ok_iff.1 h2.flags).1
  have hc : ∀ b : Bond, b.1 ∈ t.magneticAtoms order → b.2.1 ∈ t.magneticAtoms order →
      couple (likeItems t') (f.bond b) = f.turn * couple (likeItems t) b * f.turnᵀ := fun b hb1 hb2 =>
    hf.couple h2.flags h2'.flags h5 h5' h2.inv.nodup h2'.inv.nodup hsym
      (h3'.symmetric hr'.complete hs' (St.getNotation_ok_iff.1 h2'.flags).1) (fun p hp => h2.like_atoms hp)
      (fun a ha => (h3.spins a (magneticAtoms_mem hord h3.wf.toSound ha)).2) hb1 hb2
  obtain ⟨e, he⟩ := hf.number h2 hord h2' hord'
  have hax : ∃ z, SameAxes f o o' e z := by
    rcases ha with ha | ha
    · exact ⟨_, sameAxes_one ha h2 hord h2' hord' hm he⟩
    · exact sameAxes hf.rotation.ortho h2 hord h2' hord' hm he fun a hm v hv =>
        axes_turn hf.rotation (ha a hm v hv).1 (ha a hm v hv).2.1 (ha a hm v hv).2.2
  obtain ⟨z, hz⟩ := hax
  refine ⟨o, t, o', t', h1, h1', e, Sum.elim z (star z), ?_, C39_private hord hr.inv hr.wf.alloc h1 hsym,
    h_describe hf.rotation.ortho hz h2.C h2'.C (J_describe hf hm h2 hord h2' hord' hc he)⟩
  rintro (i | i)
  · exact hz.unit i
  · rw [Sum.elim_inr, Pi.star_apply, star_star, mul_comm]; exact hz.unit i

/-- **C72.** The energies that `omega` reports do not depend on the description of the magnet: if the atoms are renamed or
listed in another order, other lattice vectors of the same lattice, other cells for the atoms and another origin are chosen,
all spins are turned by a common rotation, and space is turned or reflected together with the wave vector, then the arrays of energies are the same, for all wave vectors and flags, whether
the state is stable or not, and for all correct routines of linear algebra (the two runs may use different ones). -/
theorem C72_energies_partial {f : Description} (hord : ∀ l, (order l).Perm l) (hord' : ∀ l, (order' l).Perm l)
    {spin spin' : Atom → ℝ} (hr : MagnonReady order spinVec s spin) (hr' : MagnonReady order' spinVec' s' spin')
    (hs : s.OnSiteSymmetric) (hs' : s'.OnSiteSymmetric)
    (hf : f.Holds (s.magneticAtoms order) (s'.magneticAtoms order') spin spin' s s')
    (hm : f.Moves (s.magneticAtoms order) lat lat' pos pos' spinVec spinVec')
    (ha : f.turn = 1 ∨ ∀ a ∈ s.magneticAtoms order, ∀ v, spinVec a = some v → v ≠ 0 ∧ OwnAxis v ∧ OwnAxis (f.turn *ᵥ v)) :
    ∃ o t o' t', init order lat pos spinVec s = (.ok o, t) ∧ init order' lat' pos' spinVec' s' = (.ok o', t') ∧
      o'.N = o.N ∧ ∀ k chol eig sort chol' eig' sort', IsCholesky chol → IsEig eig → IsSort sort → IsCholesky chol' →
        IsEig eig' → IsSort sort' → ∀ (junk : Mat o.N) (junk' : Mat o'.N) (z rg im : Bool),
          (o'.omega t'.cell (Colpa.solve chol' eig' sort') junk' z rg im (f.space *ᵥ k)).1.1 =
            (o.omega t.cell (Colpa.solve chol eig sort) junk z rg im k).1.1 := by
  obtain ⟨o, t, o', t', h1, h1', e, w, hw, hH, hd⟩ := described hord hord' hr hr' hs hs' hf hm ha
  refine ⟨o, t, o', t', h1, h1', by simpa using (Fintype.card_congr e).symm, ?_⟩
  intro k chol eig sort chol' eig' sort' hc he hso hc' he' hso' junk junk' z rg im
  exact omegaOf_relabel hc he hso hc' he' hso' e w hw (hH k) (hd k) junk junk' z rg im

/-! ### One atom with an on-site term -/

namespace SiteExample

open HistoryExample

/-- One atom with an on-site term, in the notation of SpinW. -/
noncomputable def st (m : M3 ℝ) : St ℝ :=
  { cell := fun _ => m, next := 1, atoms := [fe1], exch := [], onSite := [(fe1, 0)], dc := some true, sn := some false,
    ef := some 1, osf := some 1, spin := fun _ => some 1, dist := fun _ => 1 }

theorem atoms (m : M3 ℝ) : (st m).magneticAtoms id = [fe1] := by
  show List.insertionSort (fun a b : Atom => a.index ≤ b.index)
    (List.dedup ((keys ([] : PyDict Bond ℕ)).flatMap (fun b => [b.1, b.2.1]) ++ keys ([(fe1, 0)] : PyDict Atom ℕ))) = _
  decide

theorem wf (m : M3 ℝ) : (st m).WellFormed := by
  refine ⟨St.sound_of_lists ?_ ?_ ?_ ?_ ?_ ?_ ?_ ?_, fun _ b => ?_, fun h => by simp [st] at h⟩
  · show (keys ([] : PyDict Bond ℕ)).Nodup; decide
  · show (keys [(fe1, 0)]).Nodup; decide
  · show (([] : PyDict Bond ℕ).map Prod.snd ++ [(fe1, 0)].map Prod.snd).Nodup; decide
  · show ∀ r ∈ ([] : PyDict Bond ℕ).map Prod.snd ++ [(fe1, 0)].map Prod.snd, r < 1; decide
  · show ∀ b ∈ keys ([] : PyDict Bond ℕ), b.1 ∈ [fe1] ∧ b.2.1 ∈ [fe1]; decide
  · show ∀ a ∈ keys [(fe1, 0)], a ∈ [fe1]; decide
  · show ∀ a ∈ [fe1], ∀ b ∈ [fe1], a.index = b.index → a = b; decide
  · show ∀ b ∈ keys ([] : PyDict Bond ℕ), b.mirror ≠ b; decide
  · rfl

theorem ready (m : M3 ℝ) {v : Atom → Option (V3 ℝ)} (hv : ∀ a, (v a).isSome) : MagnonReady id v (st m) fun _ => 1 :=
  ⟨(wf m).paired, fun _ _ => ⟨rfl, one_ne_zero⟩, ⟨true, false, 1, 1, rfl, one_ne_zero, one_ne_zero⟩, fun a _ => hv a⟩

theorem symmetric {m : M3 ℝ} (hm : mᵀ = m) : (st m).OnSiteSymmetric := by
  intro a n h
  obtain ⟨r, _, rfl⟩ := Option.map_eq_some_iff.1 h
  exact hm

theorem physics {Γ : Type} [AddCommGroup Γ] [Fintype Γ] (m : M3 ℝ) (c : Config ℝ Γ) :
    (st m).physics c (fun _ => 1) = some (∑ n, bilin (c.σ fe1 n) m (c.σ fe1 n)) := by
  rw [energy_like (t := st m) rfl]
  have : likeItems (st m) = [((fe1, fe1, (0, 0, 0)), m)] := rfl
  have h0 : c.τ ((0, 0, 0) : Cell) = 0 := map_zero c.τ
  simp [this, h0]

/-- The matrix of the atom, if its local axes are x, y and z. -/
theorem mode {m : M3 ℝ} (hm : mᵀ = m) {v : V3 ℝ} (h1 : EnergyObj.norm3 v = 1)
    (h2 : Frame.span v = !![1, 0, 0; 0, 1, 0; 0, 0, 1]) (lat : M3 ℝ) (pos : Atom → V3 ℝ) :
    ∃ o t, init id lat pos (fun _ => some v) (st m) = (.ok o, t) ∧ ∀ k,
      SingleMode (o.callH t.cell k).1 (m 0 0 + m 1 1 - 2 * m 2 2) (m 0 0 + m 1 1 - 2 * m 2 2) (m 0 0 - m 1 1 + 2 * m 0 1 * I) := by
  obtain ⟨o, t, items, e1, e2, e3, e4, e5⟩ := ready_setup (order := id) (fun _ => .refl _) lat pos
    (ready m (v := fun _ => some v) fun _ => rfl)
  refine ⟨o, t, e1, fun k => ?_⟩
  have hat := e4.trans (atoms m)
  obtain ⟨hv1, hv2⟩ := St.values_of_pairE (wf m) e3.wf (fun _ _ => ⟨rfl, one_ne_zero⟩) e3.atoms two_ne_zero (d := true) (n := false)
    (e := 1) (o := 1) rfl e2.flags one_ne_zero one_ne_zero e3.pairE e3.siteE
  have hJ : ∀ k (i j : Fin o.N), o.J t.cell k i j = cmat m := by
    intro k i j
    rw [J_couple e2 (fun _ => .refl _) k i j {(fe1, fe1, (0, 0, 0))} fun p hp => ?_, Finset.sum_singleton, couple_val e2.inv.nodup,
      if_pos rfl, hv1, hv2]
    · have hc : ((fe1, fe1, (0, 0, 0)) : Bond).1 = atomAt o (t.magneticAtoms id) i ∧
          ((fe1, fe1, (0, 0, 0)) : Bond).2.1 = atomAt o (t.magneticAtoms id) j :=
        ⟨(atomAt_single e2 (fun _ => .refl _) hat i).symm, (atomAt_single e2 (fun _ => .refl _) hat j).symm⟩
      have hz : MagnonObj.vector lat pos (fe1, fe1, (0, 0, 0)) = 0 := by
        funext c
        simp [MagnonObj.vector, EnergyObj.lattice]
      have hp : phase k 0 = 1 := by simp [phase]
      have hval : ((st m).valO fe1).getD 0 + ((st m).valE (fe1, fe1, (0, 0, 0))).getD 0 = m := by
        show m + 0 = m
        rw [add_zero]
      rw [hval, hz, hp]
      simp only [termHom, AddMonoidHom.coe_mk, ZeroHom.coe_mk, if_pos hc, one_smul]
    · rw [Finset.mem_singleton]
      rcases List.mem_append.1 hp with hp' | hp'
      · obtain ⟨q, hq, rfl⟩ := List.mem_map.1 hp'
        have := (e2.like_atoms hp).1
        rw [hat, List.mem_singleton] at this
        simp only at this
        rw [this]
      · obtain ⟨q, hq, rfl⟩ := List.mem_map.1 hp'
        have : q.1 ∈ t.exch.keys := List.mem_map.2 ⟨q, hq, rfl⟩
        rw [← St.isSome_valE_iff, hv1] at this
        exact absurd this (by simp [St.valE, st, PyDict.get?])
  have hm01 : m 1 0 = m 0 1 := congrFun (congrFun hm 0) 1
  have hu : uOf v = ![1, I, 0] := by
    funext c
    unfold uOf
    rw [h2]
    fin_cases c <;> simp
  have hvv : vOf v = ![0, 0, 1] := by
    funext c
    unfold vOf
    rw [h2]
    fin_cases c <;> simp
  have key := fun i j => h_single e2 (fun _ => .refl _) hat rfl hJ k i j
  simp only [h1, hu, hvv] at key
  have c1 : (![1, I, 0] : V3 ℂ) ⬝ᵥ (cmat m *ᵥ star ![1, I, 0]) = (m 0 0 + m 1 1 : ℝ) := by
    simp [dotProduct, mulVec, Fin.sum_univ_three, hm01]
    linear_combination (-(m 1 1 : ℂ)) * I_mul_I
  have c2 : (![1, I, 0] : V3 ℂ) ⬝ᵥ (cmat m *ᵥ ![1, I, 0]) = (m 0 0 - m 1 1 + 2 * m 0 1 * I : ℂ) := by
    simp [dotProduct, mulVec, Fin.sum_univ_three, hm01]
    linear_combination ((m 1 1 : ℂ)) * I_mul_I
  have c3 : (![0, 0, 1] : V3 ℂ) ⬝ᵥ (cmat m *ᵥ ![0, 0, 1]) = (m 2 2 : ℂ) := by
    simp [dotProduct, mulVec, Fin.sum_univ_three]
  simp only [c1, c2, c3] at key
  refine ⟨by rw [e2.N, hat]; rfl, fun i j => ?_, fun i j => ?_, fun i j => ?_, fun i j => ?_⟩
  · rw [(key i j).1]; push_cast; ring
  · rw [(key i j).2.1]; simp
  · rw [(key i j).2.2.1]; push_cast; ring
  · rw [(key i j).2.2.2]; simp

/-- Easy axis along z. -/
def easy : M3 ℝ := !![0, 0, 0; 0, 0, 0; 0, 0, -1]

/-- A rotation about y by 2e-9. -/
noncomputable def small : M3 ℝ :=
  !![(10 ^ 18 - 1) / (10 ^ 18 + 1), 0, 2 * 10 ^ 9 / (10 ^ 18 + 1); 0, 1, 0; -(2 * 10 ^ 9 / (10 ^ 18 + 1)), 0, (10 ^ 18 - 1) / (10 ^ 18 + 1)]

theorem small_rotation : IsRotation small := by
  constructor
  · ext i j
    fin_cases i <;> fin_cases j <;> simp [small, Matrix.mul_apply, Fin.sum_univ_three] <;> norm_num
  · rw [Matrix.det_fin_three]
    simp [small]
    norm_num

/-- The rotation as another description. -/
noncomputable def turned : Description := ⟨id, fun _ => 0, small, 1, .refl _⟩

theorem turned_holds : turned.Holds ((st easy).magneticAtoms id) ((st (small * easy * smallᵀ)).magneticAtoms id) (fun _ => 1)
    (fun _ => 1) (st easy) (st (small * easy * smallᵀ)) := by
  refine ⟨small_rotation, by simp [turned], fun a _ b _ e => e, fun a => by simp [turned, atoms, eq_comm], fun _ _ => rfl, fun Γ _ _ c => ?_⟩
  rw [physics, physics]
  congr 1
  refine Finset.sum_congr rfl fun n _ => ?_
  rw [← bilinear_turn]
  simp [Description.old, turned]

/-- The direction of the turned spin. -/
noncomputable def tilt : V3 ℝ := ![2 * 10 ^ 9 / (10 ^ 18 + 1), 0, (10 ^ 18 - 1) / (10 ^ 18 + 1)]

theorem small_z : small *ᵥ ![0, 0, 1] = tilt := by
  funext i
  fin_cases i <;> simp [small, tilt, mulVec, dotProduct, Fin.sum_univ_three]

theorem norm3_z : EnergyObj.norm3 ![0, 0, 1] = 1 := by
  have h := norm3_sq ![0, 0, 1]
  simp [dotProduct, Fin.sum_univ_three] at h
  rcases h with h | h
  · exact h
  · have : 0 ≤ EnergyObj.norm3 ![0, 0, 1] := Real.sqrt_nonneg _
    linarith

theorem norm3_tilt : EnergyObj.norm3 tilt = 1 := by
  rw [← small_z, norm3_turn small_rotation.ortho, norm3_z]

theorem span_z : Frame.span ![0, 0, 1] = !![1, 0, 0; 0, 1, 0; 0, 0, 1] := by
  unfold Frame.span
  have hc : Frame.AllClose (EnergyObj.normalize ![0, 0, 1]) ![0, 0, 1] := by
    rw [Frame.allClose_iff (by simp)]
    simp [EnergyObj.normalize, norm3_z]
    positivity
  simp only [if_pos hc]

theorem span_tilt : Frame.span tilt = !![1, 0, 0; 0, 1, 0; 0, 0, 1] := by
  unfold Frame.span
  have hc : Frame.AllClose (EnergyObj.normalize tilt) ![0, 0, 1] := by
    rw [Frame.allClose_iff (by simp)]
    simp only [EnergyObj.normalize, norm3_tilt, div_one]
    refine ⟨?_, ?_, ?_⟩ <;> simp [tilt] <;> norm_num [abs_le]
  simp only [if_pos hc]

theorem turned_moves : turned.Moves ((st easy).magneticAtoms id) 1 1 (fun _ => 0) (fun _ => 0) (fun _ => some ![0, 0, 1])
    (fun _ => some tilt) := by
  refine moves_shift rfl rfl rfl (fun a _ => by simp [turned, Cell.rel_zero]) fun a _ => ?_
  show some tilt = some (small *ᵥ ![0, 0, 1])
  rw [small_z]

end SiteExample

/-- The full statement of C72: for spin vectors that are not zero. -/
def C72_statement : Prop :=
  ∀ (f : Description) (order order' : List Atom → List Atom), (∀ l, (order l).Perm l) → (∀ l, (order' l).Perm l) →
    ∀ (lat lat' : M3 ℝ) (pos pos' : Atom → V3 ℝ) (spinVec spinVec' : Atom → Option (V3 ℝ)) (s s' : St ℝ) (spin spin' : Atom → ℝ),
    MagnonReady order spinVec s spin → MagnonReady order' spinVec' s' spin' → s.OnSiteSymmetric → s'.OnSiteSymmetric →
    f.Holds (s.magneticAtoms order) (s'.magneticAtoms order') spin spin' s s' →
    f.Moves (s.magneticAtoms order) lat lat' pos pos' spinVec spinVec' →
    (∀ a ∈ s.magneticAtoms order, ∀ v, spinVec a = some v → v ≠ 0) →
    ∃ o t o' t', init order lat pos spinVec s = (.ok o, t) ∧ init order' lat' pos' spinVec' s' = (.ok o', t') ∧
      o'.N = o.N ∧ ∀ k chol eig sort chol' eig' sort', IsCholesky chol → IsEig eig → IsSort sort → IsCholesky chol' →
        IsEig eig' → IsSort sort' → ∀ (junk : Mat o.N) (junk' : Mat o'.N) (z rg im : Bool),
          (o'.omega t'.cell (Colpa.solve chol' eig' sort') junk' z rg im (f.space *ᵥ k)).1.1 =
            (o.omega t.cell (Colpa.solve chol eig sort) junk z rg im k).1.1

open SiteExample in
/-- **C72 is false of the code** for spins that are almost, but not exactly, along z: one atom with an easy axis, turned
together with its spin by 2e-9, has another magnon energy, because the code takes z instead of the direction of the spin. -/
theorem C72_false : ¬ C72_statement := by
  intro h
  have hsym : (small * easy * smallᵀ)ᵀ = small * easy * smallᵀ := by
    rw [transpose_mul, transpose_mul, transpose_transpose, ← Matrix.mul_assoc]
    congr 2
    ext i j
    fin_cases i <;> fin_cases j <;> rfl
  have hesym : easyᵀ = easy := by
    ext i j
    fin_cases i <;> fin_cases j <;> rfl
  obtain ⟨o, t, o', t', h1, h1', _, h2⟩ := h turned id id (fun _ => .refl _) (fun _ => .refl _) 1 1 (fun _ => 0) (fun _ => 0)
    (fun _ => some ![0, 0, 1]) (fun _ => some tilt) (st easy) (st (small * easy * smallᵀ)) (fun _ => 1) (fun _ => 1)
    (ready _ fun _ => rfl) (ready _ fun _ => rfl) (symmetric hesym) (symmetric hsym) turned_holds turned_moves
    (fun a _ v hv => by
      simp only [Option.some.injEq] at hv
      subst hv
      intro e
      simpa using congrFun e 2)
  obtain ⟨o1, t1, g1, g2⟩ := mode hesym norm3_z span_z 1 fun _ => 0
  obtain ⟨o2, t2, g1', g2'⟩ := mode hsym norm3_tilt span_tilt 1 fun _ => 0
  rw [h1] at g1
  rw [h1'] at g1'
  simp only [Prod.mk.injEq, Except.ok.injEq] at g1 g1'
  obtain ⟨rfl, rfl⟩ := g1
  obtain ⟨rfl, rfl⟩ := g1'
  obtain ⟨chol, hc⟩ := Colpa.exists_chol (N := o.N)
  obtain ⟨eig, ⟨he, _⟩⟩ := Colpa.exists_eig (N := o.N)
  obtain ⟨sort, hs⟩ := Colpa.exists_sort (N := o.N)
  obtain ⟨chol', hc'⟩ := Colpa.exists_chol (N := o'.N)
  obtain ⟨eig', ⟨he', _⟩⟩ := Colpa.exists_eig (N := o'.N)
  obtain ⟨sort', hs'⟩ := Colpa.exists_sort (N := o'.N)
  have key := h2 0 chol eig sort chol' eig' sort' hc he hs hc' he' hs' 0 0 false false false
  have d1 : easy 0 0 = 0 ∧ easy 1 1 = 0 ∧ easy 2 2 = -1 ∧ easy 0 1 = 0 := by simp [easy]
  have d2 : (small * easy * smallᵀ) 0 0 = -(2 * 10 ^ 9 / (10 ^ 18 + 1)) ^ 2 ∧ (small * easy * smallᵀ) 1 1 = 0 ∧
      (small * easy * smallᵀ) 2 2 = -((10 ^ 18 - 1) / (10 ^ 18 + 1)) ^ 2 ∧ (small * easy * smallᵀ) 0 1 = 0 := by
    simp [easy, small, Matrix.mul_apply, Fin.sum_univ_three]
    constructor <;> ring
  have m1 := g2 0
  have m2 := g2' 0
  rw [d1.1, d1.2.1, d1.2.2.1, d1.2.2.2] at m1
  rw [d2.1, d2.2.1, d2.2.2.1, d2.2.2.2] at m2
  have q1 := m1.omega hc he hs (by norm_num) (by norm_num [normSq_apply]) 0 false false
  have q2 := m2.omega hc' he' hs' (by norm_num) (by norm_num [normSq_apply]) 0 false false
  have hr : ∀ x : ℝ, 1 < x → round8 ((x : ℝ) : ℂ) = x := by
    intro x hx
    unfold round8
    rw [if_neg]
    rw [Complex.norm_real, Real.norm_of_nonneg (by linarith)]
    norm_num
    linarith
  have hb : ∀ (p q : ℝ), p / 2 = 0 → 1 < q → 1 < p / 2 + Real.sqrt q := fun p q h0 hq => by
    rw [h0, zero_add, Real.lt_sqrt zero_le_one]
    linarith
  have e1 : (o.omega t.cell (Colpa.solve chol eig sort) 0 false false false 0).1.1 = _ := q1
  have e2 : (o'.omega t'.cell (Colpa.solve chol' eig' sort') 0 false false false 0).1.1 = _ := q2
  rw [mulVec_zero, e1, e2, List.cons.injEq, Option.some.injEq, hr _ (hb _ _ (by norm_num) (by norm_num [normSq_apply])),
    hr _ (hb _ _ (by norm_num) (by norm_num [normSq_apply]))] at key
  have key' := Complex.ofReal_injective key.1
  rw [sub_self, sub_self, zero_div, zero_add, zero_add] at key'
  rw [Real.sqrt_inj (by norm_num [normSq_apply]) (by norm_num [normSq_apply])] at key'
  norm_num [normSq_apply] at key'

/-! ### Examples -/

namespace CellExample

open HistoryExample NeelExample

/-- The bond of `NeelExample` if the second atom is moved to the next cell. -/
def bond0 : PyDict Bond ℕ := [((fe1, fe2, (0, 0, 0)), 0)]

/-- Both orientations of the bond of `NeelExample`, the mirror first. -/
def bonds : PyDict Bond ℕ := [((fe2, fe1, (-1, 0, 0)), 0), ((fe1, fe2, (1, 0, 0)), 1)]

noncomputable def st0 : St ℝ := { NeelExample.st 1 with exch := bond0 }

/-- The Hamiltonian with double counting; each of the two parameters counts half. -/
noncomputable def st2 : St ℝ := { NeelExample.st (1 / 2) with exch := bonds, next := 2, dc := some true }

theorem atoms0 : st0.magneticAtoms id = [fe1, fe2] := by
  show List.insertionSort (fun a b : Atom => a.index ≤ b.index)
    (List.dedup (bond0.keys.flatMap (fun b => [b.1, b.2.1]) ++ keys ([] : PyDict Atom ℕ))) = _
  decide

theorem atoms2 : st2.magneticAtoms List.reverse = [fe1, fe2] := by
  show List.insertionSort (fun a b : Atom => a.index ≤ b.index)
    (List.reverse (List.dedup (bonds.keys.flatMap (fun b => [b.1, b.2.1]) ++ keys ([] : PyDict Atom ℕ)))) = _
  decide

theorem wf0 : st0.WellFormed := by
  refine ⟨St.sound_of_lists ?_ ?_ ?_ ?_ ?_ ?_ ?_ ?_, fun h => by simp [st0, NeelExample.st] at h, fun _ => ?_⟩
  · show bond0.keys.Nodup; decide
  · show (keys ([] : PyDict Atom ℕ)).Nodup; decide
  · show (bond0.map Prod.snd ++ ([] : PyDict Atom ℕ).map Prod.snd).Nodup; decide
  · show ∀ r ∈ bond0.map Prod.snd ++ ([] : PyDict Atom ℕ).map Prod.snd, r < 1; decide
  · show ∀ b ∈ bond0.keys, b.1 ∈ [fe1, fe2] ∧ b.2.1 ∈ [fe1, fe2]; decide
  · show ∀ a ∈ keys ([] : PyDict Atom ℕ), a ∈ [fe1, fe2]; decide
  · show ∀ a ∈ [fe1, fe2], ∀ b ∈ [fe1, fe2], a.index = b.index → a = b; decide
  · show ∀ b ∈ bond0.keys, b.mirror ≠ b; decide
  · intro b hb
    have : b = (fe1, fe2, (0, 0, 0)) := by simpa [st0, bond0] using hb
    subst this
    unfold Canonical
    decide

theorem value2 (b : Bond) : st2.valE b = if b ∈ bonds.keys then some 1 else none := by
  by_cases hb : b ∈ bonds.keys
  · obtain ⟨r, hr⟩ := mem_keys_iff.1 hb
    have : st2.exch.get? b = some r := hr
    rw [if_pos hb, St.valE, this]; rfl
  · rw [if_neg hb]; exact St.valE_eq_none_iff.2 hb

theorem wf2 : st2.WellFormed := by
  refine ⟨St.sound_of_lists ?_ ?_ ?_ ?_ ?_ ?_ ?_ ?_, fun _ b => ?_, fun h => by simp [st2] at h⟩
  · show bonds.keys.Nodup; decide
  · show (keys ([] : PyDict Atom ℕ)).Nodup; decide
  · show (bonds.map Prod.snd ++ ([] : PyDict Atom ℕ).map Prod.snd).Nodup; decide
  · show ∀ r ∈ bonds.map Prod.snd ++ ([] : PyDict Atom ℕ).map Prod.snd, r < 2; decide
  · show ∀ b ∈ bonds.keys, b.1 ∈ [fe1, fe2] ∧ b.2.1 ∈ [fe1, fe2]; decide
  · show ∀ a ∈ keys ([] : PyDict Atom ℕ), a ∈ [fe1, fe2]; decide
  · show ∀ a ∈ [fe1, fe2], ∀ b ∈ [fe1, fe2], a.index = b.index → a = b; decide
  · show ∀ b ∈ bonds.keys, b.mirror ≠ b; decide
  · have hm : ∀ b, b.mirror ∈ bonds.keys ↔ b ∈ bonds.keys := by
      have h1 : ∀ b ∈ bonds.keys, b.mirror ∈ bonds.keys := by decide
      exact fun b => ⟨fun h => by simpa [Bond.mirror_mirror] using h1 _ h, h1 b⟩
    rw [value2, value2]
    simp only [hm]
    split_ifs <;> simp

theorem ready0 : MagnonReady id neel st0 fun _ => 2 :=
  ⟨wf0.paired, fun _ _ => ⟨rfl, two_ne_zero⟩, ⟨false, false, 1, 1, rfl, one_ne_zero, one_ne_zero⟩, fun _ _ => rfl⟩

theorem ready2 : MagnonReady List.reverse neel st2 fun _ => 2 :=
  ⟨wf2.paired, fun _ _ => ⟨rfl, two_ne_zero⟩, ⟨true, false, 1 / 2, 1, rfl, by norm_num, one_ne_zero⟩, fun _ _ => rfl⟩

/-- The second atom belongs to the next cell. -/
def next : Description := ⟨id, fun a => if a = fe2 then (-1, 0, 0) else 0, 1, 1, .refl _⟩

theorem next_holds : next.Holds ((NeelExample.st 1).magneticAtoms id) (st0.magneticAtoms id) (fun _ => 2) (fun _ => 2)
    (NeelExample.st 1) st0 := by
  refine ⟨isRotation_one, by simp [next], fun a _ b _ e => e, fun a => ?_, fun _ _ => rfl, fun Γ _ _ c => ?_⟩
  · rw [atoms0, NeelExample.atoms]
    simp [next, eq_comm]
  · rw [St.physics_eq (s := st0) (d := false) (n := false) (e := 1) (o := 1) rfl,
      St.physics_eq (s := NeelExample.st 1) (d := false) (n := false) (e := 1) (o := 1) rfl]
    have e1 : st0.exchangeItems = [((fe1, fe2, (0, 0, 0)), 1)] := rfl
    have e2 : (NeelExample.st 1).exchangeItems = [((fe1, fe2, (1, 0, 0)), 1)] := rfl
    have e3 : st0.onSiteItems = [] := rfl
    have e4 : (NeelExample.st 1).onSiteItems = [] := rfl
    have h12 : fe1 ≠ fe2 := by decide
    have h0 : c.τ ((0, 0, 0) : Cell) = 0 := map_zero c.τ
    have h1 : ∀ n, n + c.τ (1, 0, 0) + c.τ (-1, 0, 0) = n := by
      intro n
      rw [add_assoc, ← map_add]
      have : ((1, 0, 0) : Cell) + (-1, 0, 0) = 0 := by decide
      rw [this, map_zero, add_zero]
    rw [e1, e2, e3, e4]
    simp [Config.bonds, Config.bond, Config.sites, Description.old, next, h0, h12, h1]

end CellExample

open NeelExample HistoryExample CellExample in
/-- C72: the antiferromagnet of `NeelExample` with the second atom counted to the next cell. -/
example : ∃ o t o' t', init id 1 (fun _ => 0) neel (NeelExample.st 1) = (.ok o, t) ∧
    init id 1 (fun a => if a = fe2 then ![1, 0, 0] else 0) neel st0 = (.ok o', t') ∧ o'.N = o.N ∧
    ∀ k chol eig sort chol' eig' sort', IsCholesky chol → IsEig eig → IsSort sort → IsCholesky chol' →
        IsEig eig' → IsSort sort' → ∀ (junk : Mat o.N) (junk' : Mat o'.N) (z rg im : Bool),
          (o'.omega t'.cell (Colpa.solve chol' eig' sort') junk' z rg im ((1 : M3 ℝ) *ᵥ k)).1.1 =
            (o.omega t.cell (Colpa.solve chol eig sort) junk z rg im k).1.1 := by
  refine C72_energies_partial (f := next) (fun _ => .refl _) (fun _ => .refl _) (ready one_ne_zero fun _ => rfl) ready0
    (fun a m h => by simp [St.valO, NeelExample.st, PyDict.get?] at h)
    (fun a m h => by simp [St.valO, st0, NeelExample.st, PyDict.get?] at h) next_holds
    (moves_shift rfl rfl rfl (fun a _ => ?_) fun a _ => by simp [next]) (Or.inl rfl)
  funext i
  by_cases h : a = fe2 <;> fin_cases i <;> simp [next, h, Cell.rel]

namespace ShearExample

open NeelExample HistoryExample CellExample

/-- The second component of the new cell is the sum of the first two. -/
def shear : Cell ≃+ Cell where
  toFun R := (R.1, R.2.1 + R.1, R.2.2)
  invFun R := (R.1, R.2.1 - R.1, R.2.2)
  left_inv R := by simp
  right_inv R := by simp
  map_add' R T := by
    refine Prod.ext rfl (Prod.ext ?_ rfl)
    show R.2.1 + T.2.1 + (R.1 + T.1) = R.2.1 + R.1 + (T.2.1 + T.1)
    ring

/-- The bond of `NeelExample` with the new lattice vectors. -/
def bond1 : PyDict Bond ℕ := [((fe1, fe2, (1, 1, 0)), 0)]

noncomputable def st1 : St ℝ := { NeelExample.st 1 with exch := bond1 }

theorem atoms1 : st1.magneticAtoms id = [fe1, fe2] := by
  show List.insertionSort (fun a b : Atom => a.index ≤ b.index)
    (List.dedup (bond1.keys.flatMap (fun b => [b.1, b.2.1]) ++ keys ([] : PyDict Atom ℕ))) = _
  decide

theorem wf1 : st1.WellFormed := by
  refine ⟨St.sound_of_lists ?_ ?_ ?_ ?_ ?_ ?_ ?_ ?_, fun h => by simp [st1, NeelExample.st] at h, fun _ => ?_⟩
  · show bond1.keys.Nodup; decide
  · show (keys ([] : PyDict Atom ℕ)).Nodup; decide
  · show (bond1.map Prod.snd ++ ([] : PyDict Atom ℕ).map Prod.snd).Nodup; decide
  · show ∀ r ∈ bond1.map Prod.snd ++ ([] : PyDict Atom ℕ).map Prod.snd, r < 1; decide
  · show ∀ b ∈ bond1.keys, b.1 ∈ [fe1, fe2] ∧ b.2.1 ∈ [fe1, fe2]; decide
  · show ∀ a ∈ keys ([] : PyDict Atom ℕ), a ∈ [fe1, fe2]; decide
  · show ∀ a ∈ [fe1, fe2], ∀ b ∈ [fe1, fe2], a.index = b.index → a = b; decide
  · show ∀ b ∈ bond1.keys, b.mirror ≠ b; decide
  · intro b hb
    have : b = (fe1, fe2, (1, 1, 0)) := by simpa [st1, bond1] using hb
    subst this
    exact Or.inl (by decide)

theorem ready1 : MagnonReady id neel st1 fun _ => 2 :=
  ⟨wf1.paired, fun _ _ => ⟨rfl, two_ne_zero⟩, ⟨false, false, 1, 1, rfl, one_ne_zero, one_ne_zero⟩, fun a _ => rfl⟩

/-- Other lattice vectors. -/
def other : Description := ⟨id, fun _ => 0, 1, 1, shear⟩

theorem holds : other.Holds ((NeelExample.st 1).magneticAtoms id) (st1.magneticAtoms id) (fun _ => 2) (fun _ => 2)
    (NeelExample.st 1) st1 := by
  refine ⟨isRotation_one, by simp [other], fun a _ b _ e => e, fun a => ?_, fun _ _ => rfl, fun Γ _ _ c => ?_⟩
  · rw [atoms1, NeelExample.atoms]
    simp [other, eq_comm]
  · rw [St.physics_eq (s := st1) (d := false) (n := false) (e := 1) (o := 1) rfl,
      St.physics_eq (s := NeelExample.st 1) (d := false) (n := false) (e := 1) (o := 1) rfl]
    have e1 : st1.exchangeItems = [((fe1, fe2, (1, 1, 0)), 1)] := rfl
    have e2 : (NeelExample.st 1).exchangeItems = [((fe1, fe2, (1, 0, 0)), 1)] := rfl
    have e3 : st1.onSiteItems = [] := rfl
    have e4 : (NeelExample.st 1).onSiteItems = [] := rfl
    have h : shear (1, 0, 0) = (1, 1, 0) := by decide
    rw [e1, e2, e3, e4]
    simp [Config.bonds, Config.bond, Config.sites, Description.old, other, h]

/-- The first new lattice vector is the difference of the first two old ones; the origin is moved. -/
theorem moves : other.Moves ((NeelExample.st 1).magneticAtoms id) 1 !![1, -1, 0; 0, 1, 0; 0, 0, 1] (fun _ => 0)
    (fun _ => ![1 / 2, 0, 0]) neel neel := by
  refine ⟨fun R => ?_, ⟨![1 / 2, -1 / 2, 0], fun a _ => ?_⟩, fun a _ => by simp [other]⟩
  · funext i
    fin_cases i <;> simp [other, shear, absolute, Cell.rel, Fin.sum_univ_three, Matrix.one_apply]
  · funext i
    fin_cases i <;> simp [other, Cell.rel_zero, absolute, Fin.sum_univ_three] <;> norm_num

end ShearExample

open NeelExample HistoryExample ShearExample in
/-- C72: the antiferromagnet of `NeelExample` with other lattice vectors and another origin. -/
example : ∃ o t o' t', init id 1 (fun _ => 0) neel (NeelExample.st 1) = (.ok o, t) ∧
    init id !![1, -1, 0; 0, 1, 0; 0, 0, 1] (fun _ => ![1 / 2, 0, 0]) neel st1 = (.ok o', t') ∧ o'.N = o.N ∧
    ∀ k chol eig sort chol' eig' sort', IsCholesky chol → IsEig eig → IsSort sort → IsCholesky chol' →
        IsEig eig' → IsSort sort' → ∀ (junk : Mat o.N) (junk' : Mat o'.N) (z rg im : Bool),
          (o'.omega t'.cell (Colpa.solve chol' eig' sort') junk' z rg im ((1 : M3 ℝ) *ᵥ k)).1.1 =
            (o.omega t.cell (Colpa.solve chol eig sort) junk z rg im k).1.1 :=
  C72_energies_partial (f := other) (fun _ => .refl _) (fun _ => .refl _) (ready one_ne_zero fun _ => rfl) ready1
    (fun a m h => by simp [St.valO, NeelExample.st, PyDict.get?] at h)
    (fun a m h => by simp [St.valO, st1, NeelExample.st, PyDict.get?] at h) holds moves (Or.inl rfl)

open SiteExample HistoryExample in
/-- C72: a spin along z with an easy axis, turned to the axis y. -/
example (Q : M3 ℝ) (hQ : IsRotation Q) (hz : Q *ᵥ ![0, 0, 1] = ![0, 1, 0]) :
    ∃ o t o' t', init id 1 (fun _ => 0) (fun _ => some ![0, 0, 1]) (st easy) = (.ok o, t) ∧
      init id 1 (fun _ => 0) (fun _ => some ![0, 1, 0]) (st (Q * easy * Qᵀ)) = (.ok o', t') ∧ o'.N = o.N ∧
      ∀ k chol eig sort chol' eig' sort', IsCholesky chol → IsEig eig → IsSort sort → IsCholesky chol' →
        IsEig eig' → IsSort sort' → ∀ (junk : Mat o.N) (junk' : Mat o'.N) (z rg im : Bool),
          (o'.omega t'.cell (Colpa.solve chol' eig' sort') junk' z rg im ((1 : M3 ℝ) *ᵥ k)).1.1 =
            (o.omega t.cell (Colpa.solve chol eig sort) junk z rg im k).1.1 := by
  have hesym : easyᵀ = easy := by
    ext i j
    fin_cases i <;> fin_cases j <;> rfl
  refine C72_energies_partial (f := ⟨id, fun _ => 0, Q, 1, .refl _⟩) (fun _ => .refl _) (fun _ => .refl _) (ready _ fun _ => rfl)
    (ready _ fun _ => rfl) (symmetric hesym) (symmetric ?_)
    ⟨hQ, by simp, fun a _ b _ e => e, fun a => by simp [atoms, eq_comm], fun _ _ => rfl, fun Γ _ _ c => ?_⟩
    (moves_shift rfl rfl rfl (fun a _ => by simp [Cell.rel_zero]) fun a _ => ?_) (Or.inr fun a _ v hv => ?_)
  · rw [transpose_mul, transpose_mul, transpose_transpose, hesym, Matrix.mul_assoc]
  · rw [physics, physics]
    congr 1
    refine Finset.sum_congr rfl fun n _ => ?_
    rw [← bilinear_turn]
    simp [Description.old]
  · show some _ = some (Q *ᵥ _)
    rw [hz]
  · simp only [Option.some.injEq] at hv
    subst hv
    refine ⟨fun e => by simpa using congrFun e 2, fun d hd => Or.inr ?_, fun d hd => Or.inl (Or.inr ?_)⟩
    · rw [directs_unique hd (d' := ![0, 0, 1])
        ⟨by simp [IsUnit3, dotProduct, Fin.sum_univ_three], 1, one_pos, by simp⟩]
      simp
    · simp only [hz] at hd
      rw [directs_unique hd (d' := ![0, 1, 0])
        ⟨by simp [IsUnit3, dotProduct, Fin.sum_univ_three], 1, one_pos, by simp⟩]
      norm_num

open NeelExample HistoryExample CellExample in
/-- C71: without double counting, and with it in another order of the bonds and of the set of atoms. -/
example : ∃ o t o' t', init id 1 (fun _ => 0) neel (NeelExample.st 1) = (.ok o, t) ∧
    init List.reverse 1 (fun _ => 0) neel st2 = (.ok o', t') ∧ ∃ hN : o'.N = o.N, ∀ k,
        ∀ r c, (o'.callH t'.cell k).1 (Sum.map (Fin.cast hN.symm) (Fin.cast hN.symm) r)
          (Sum.map (Fin.cast hN.symm) (Fin.cast hN.symm) c) = (o.callH t.cell k).1 r c := by
  obtain ⟨o, t, o', t', h1, h2, hN, h3⟩ := C71_energy (order := id) (order' := List.reverse) (s := NeelExample.st 1) (s' := st2)
    (fun _ => .refl _) List.reverse_perm 1 (fun _ => 0) (ready one_ne_zero (v := neel) fun _ => rfl) ready2
    (fun a m h => by simp [St.valO, NeelExample.st, PyDict.get?] at h)
    (fun a m h => by simp [St.valO, st2, NeelExample.st, PyDict.get?] at h)
    (fun a => by rw [atoms2, NeelExample.atoms]) fun Γ _ _ c => by
      rw [St.physics_eq (s := st2) (d := true) (n := false) (e := 1 / 2) (o := 1) rfl,
        St.physics_eq (s := NeelExample.st 1) (d := false) (n := false) (e := 1) (o := 1) rfl]
      have e1 : st2.exchangeItems = [((fe2, fe1, (-1, 0, 0)), 1), ((fe1, fe2, (1, 0, 0)), 1)] := rfl
      have e2 : (NeelExample.st 1).exchangeItems = [((fe1, fe2, (1, 0, 0)), 1)] := rfl
      have e3 : st2.onSiteItems = [] := rfl
      have e4 : (NeelExample.st 1).onSiteItems = [] := rfl
      have h1 : ∀ n, n + c.τ (1, 0, 0) + c.τ (-1, 0, 0) = n := by
        intro n
        rw [add_assoc, ← map_add]
        have : ((1, 0, 0) : Cell) + (-1, 0, 0) = 0 := by decide
        rw [this, map_zero, add_zero]
      have h2 : ∑ n, bilin (c.σ fe2 n) 1 (c.σ fe1 (n + c.τ (-1, 0, 0))) = ∑ n, bilin (c.σ fe1 n) 1 (c.σ fe2 (n + c.τ (1, 0, 0))) := by
        rw [← Equiv.sum_comp (Equiv.addRight (c.τ (1, 0, 0)))]
        refine Finset.sum_congr rfl fun n _ => ?_
        rw [Equiv.coe_addRight, h1, ← bilinear_swap, transpose_one]
      rw [e1, e2, e3, e4]
      simp only [Config.bonds, Config.bond, Config.sites, List.map_cons, List.map_nil, List.sum_cons, List.sum_nil, weight]
      rw [h2]
      congr 1
      simp
      ring
  exact ⟨o, t, o', t', h1, h2, hN, fun k => (h3 k).1⟩

open NeelExample HistoryExample in
/-- C71, notations: the antiferromagnet in the notation of TB2J. -/
example : ∃ o t o' t', init id 1 (fun _ => 0) neel (NeelExample.st 1) = (.ok o, t) ∧
    init List.reverse 1 (fun _ => 0) neel (runOps [.setNotation (.str "tb2j"), .setEF 3] (NeelExample.st 1)) = (.ok o', t') ∧
    o'.N = o.N := by
  obtain ⟨o, t, o', t', h1, h2, hN, _⟩ := C71_notation (order := id) (order' := List.reverse) (s := NeelExample.st 1)
    (fun _ => .refl _) List.reverse_perm 1 (fun _ => 0) (ready one_ne_zero (v := neel) fun _ => rfl)
    [.setNotation (.str "tb2j"), .setEF 3] (by
      intro op hop
      rcases List.mem_cons.1 hop with rfl | hop
      · rintro q (⟨_, rfl⟩ | ⟨_, rfl⟩ | ⟨_, rfl⟩ | ⟨_, rfl⟩) <;> norm_num
      · rw [List.mem_singleton.1 hop]
        show (3 : ℝ) ≠ 0
        norm_num)
  exact ⟨o, t, o', t', h1, h2, hN⟩

end Magnopy
