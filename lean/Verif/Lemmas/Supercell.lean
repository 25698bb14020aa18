import Verif.Spec.Supercell
import Verif.Lemmas.Fourier
import Verif.Lemmas.Folding

/-!
# Helper lemmas: supercells
-/

set_option autoImplicit false
set_option linter.unusedSectionVars false

namespace Magnopy

open PyDict Matrix Complex MagnonObj

/-! ### Interactions -/

theorem complexM_injective : Function.Injective complexM := by
  intro m m' h
  ext i j
  have := congrFun (congrFun h i) j
  exact Complex.ofReal_injective this

theorem St.interaction_eq {s : St ℝ} {d n : Bool} {e f : ℝ} (h : s.getNotation = .ok (d, n, e, f)) (spin : Atom → ℝ) (b : Bond) :
    s.interaction spin b = (e * (weight n spin b.1 * weight n spin b.2.1)) •
      ((s.valE b).getD 0 + ((s.valE b.mirror).getD 0)ᵀ) := by
  unfold St.interaction
  rw [h]

theorem getD_map_smul (x : ℝ) (m : Option (M3 ℝ)) : (m.map fun y => x • y).getD 0 = x • m.getD 0 := by
  cases m <;> simp

/-- The interaction in terms of the canonical orientation. -/
theorem St.interaction_pair {s : St ℝ} (hs : s.Paired) {d n : Bool} {e f : ℝ} (h : s.getNotation = .ok (d, n, e, f))
    (spin : Atom → ℝ) (b : Bond) :
    s.interaction spin b = (s.pairE spin b).getD 0 + ((s.pairE spin b.mirror).getD 0)ᵀ := by
  have hd := (St.getNotation_ok_iff.1 h).1
  have hm2 : ∀ b : Bond, (b.mirror).1 = b.2.1 ∧ b.mirror.2.1 = b.1 := fun b => ⟨rfl, rfl⟩
  have hsum : (s.valE b).getD 0 + ((s.valE b.mirror).getD 0)ᵀ = (if d then 2 else 1 : ℝ) • (s.oneE b).getD 0 := by
    unfold St.oneE
    cases d with
    | false =>
      rw [if_neg Bool.false_ne_true, one_smul]
      by_cases hb : b ∈ s.exch.keys
      · rw [St.valE_eq_none_iff.2 (hs.single hd b hb)]
        cases s.valE b <;> simp
      · rw [St.valE_eq_none_iff.2 hb]
        cases s.valE b.mirror <;> simp
    | true =>
      rw [if_pos rfl, hs.twice hd, two_smul]
      cases s.valE b <;> simp
  have hmir : ((s.oneE b.mirror).getD 0)ᵀ = (s.oneE b).getD 0 := by
    rw [hs.oneE_mirror hd]
    cases s.oneE b <;> simp
  rw [St.interaction_eq h, hsum, St.pairE_one h, St.pairE_one h]
  by_cases hb : b ∈ s.exch.keys ∨ b.mirror ∈ s.exch.keys
  · have hk := hs.keeps_mirror hb
    cases hkb : St.keeps b with
    | true =>
      rw [hkb] at hk
      rw [hk]
      simp only [Bool.not_true, if_true, getD_map_smul, Bool.false_eq_true, if_false, Option.getD_none, transpose_zero, add_zero,
        smul_smul]
      congr 1
      ring
    | false =>
      rw [hkb] at hk
      rw [hk]
      simp only [Bool.not_false, if_true, getD_map_smul, Bool.false_eq_true, if_false, Option.getD_none, transpose_smul, zero_add,
        hmir, (hm2 b).1, (hm2 b).2, smul_smul]
      congr 1
      ring
  · have h1 : s.oneE b = none := by
      rw [← Option.not_isSome_iff_eq_none, St.isSome_oneE_iff]; exact hb
    have h2 : s.oneE b.mirror = none := by
      rw [hs.oneE_mirror hd, h1]; rfl
    rw [h1, h2]
    simp

variable {order order' : List Atom → List Atom} {lat lat' : M3 ℝ} {pos pos' : Atom → V3 ℝ}
  {spinVec spinVec' : Atom → Option (V3 ℝ)} {s s' : St ℝ} {o o' : MagnonObj} {t t' : St ℝ} {items items' : List (Bond × ℕ)}
  {spin spin' : Atom → ℝ}

/-- The couplings of the object from the energies of the user. -/
theorem couple_energy (h : ObjSpec order lat pos spinVec s o t items) (hr : MagnonReady order spinVec s spin)
    (hR : St.Renoted Unit spin s t) (b : Bond) :
    complexM ((spin b.1 * spin b.2.1) • couple (likeItems t) b) =
      (if b = (b.1, b.1, (0, 0, 0)) then s.siteEnergy spin b.1 else 0) + complexM ((1 / 2 : ℝ) • s.interaction spin b) := by
  obtain ⟨d, n, e, f, hn, he, hf⟩ := hr.complete
  rw [couple_val h.inv.nodup, smul_add, complexM_add]
  congr 1
  · by_cases hb : b = (b.1, b.1, (0, 0, 0))
    · rw [if_pos hb, if_pos hb]
      unfold St.siteEnergy
      rw [hn]
      simp only
      have hv := hR.siteE b.1
      rw [St.siteE_eq hn, St.siteE_eq h.flags] at hv
      have hv' := congrArg (fun x => x.getD 0) hv
      simp only [getD_map_smul, weight, Bool.false_eq_true, if_false, one_mul] at hv'
      rw [show b.2.1 = b.1 from congrArg (fun x => x.2.1) hb, hv', complexM_smul, pow_two]
      rfl
    · rw [if_neg hb, if_neg hb, smul_zero]
      ext i j; simp [complexM]
  · congr 1
    have h1 : t.interaction spin b = s.interaction spin b := by
      rw [St.interaction_pair hr.wf hn, St.interaction_pair hR.wf.paired h.flags, hR.pairE, hR.pairE]
    have hd := (St.getNotation_ok_iff.1 h.flags).1
    have hmir : ((t.valE b.mirror).getD 0)ᵀ = (t.valE b).getD 0 := by
      rw [hR.wf.twice hd]
      cases t.valE b <;> simp
    rw [← h1, St.interaction_eq h.flags, hmir, ← two_smul ℝ ((t.valE b).getD 0), smul_smul, smul_smul]
    congr 1
    simp only [weight, Bool.false_eq_true, if_false]
    ring

/-! ### `J` as a sum over cells -/

theorem J_cells (h : ObjSpec order lat pos spinVec s o t items) (hord : ∀ l, (order l).Perm l) (k : V3 ℝ) (i j : Fin o.N)
    (S : Finset Cell) (hS : ∀ R, R ∉ S → couple (likeItems t)
      (atomAt o (t.magneticAtoms order) i, atomAt o (t.magneticAtoms order) j, R) = 0) :
    o.J t.cell k i j = ∑ R ∈ S, phase k (MagnonObj.vector lat pos
      (atomAt o (t.magneticAtoms order) i, atomAt o (t.magneticAtoms order) j, R)) •
        complexM (couple (likeItems t) (atomAt o (t.magneticAtoms order) i, atomAt o (t.magneticAtoms order) j, R)) := by
  classical
  set a := atomAt o (t.magneticAtoms order) i
  set a' := atomAt o (t.magneticAtoms order) j
  let c : Cell → Bond := fun R => (a, a', R)
  have hc : Function.Injective c := fun R R' e => by simpa [c] using e
  rw [J_couple h hord k i j (((likeItems t).map Prod.fst).toFinset ∪ S.image c) fun p hp => Finset.mem_union_left _
    (List.mem_toFinset.2 (List.mem_map.2 ⟨p, hp, rfl⟩)), ← Finset.sum_subset Finset.subset_union_right, Finset.sum_image hc.injOn]
  · refine Finset.sum_congr rfl fun R _ => ?_
    simp only [termHom, AddMonoidHom.coe_mk, ZeroHom.coe_mk, c]
    rw [if_pos ⟨rfl, rfl⟩]
    rfl
  · rintro ⟨b, b', R⟩ _ hb
    simp only [termHom, AddMonoidHom.coe_mk, ZeroHom.coe_mk]
    split_ifs with hcond
    · obtain ⟨e1, e2⟩ := hcond
      subst e1 e2
      rw [hS R fun hR => hb (Finset.mem_image.2 ⟨R, hR, rfl⟩)]
      ext i j; simp
    · rfl

/-! ### Phases -/

theorem phase_add (k d d' : V3 ℝ) : phase k (d + d') = phase k d * phase k d' := by
  unfold phase
  rw [← Complex.exp_add, dotProduct_add]
  congr 1
  push_cast
  ring

theorem phase_add_left (k k' d : V3 ℝ) : phase (k + k') d = phase k d * phase k' d := by
  unfold phase
  rw [← Complex.exp_add, add_dotProduct]
  congr 1
  push_cast
  ring

theorem phase_zero (k : V3 ℝ) : phase k 0 = 1 := by simp [phase]

theorem phase_star (k d : V3 ℝ) : star (phase k d) = phase k (-d) := by
  unfold phase
  rw [RCLike.star_def, ← Complex.exp_conj, dotProduct_neg]
  congr 1
  simp

theorem phase_star_left (k d : V3 ℝ) : star (phase k d) = phase (-k) d := by
  rw [phase_star]
  unfold phase
  rw [dotProduct_neg, neg_dotProduct]

theorem phase_unit (k d : V3 ℝ) : phase k d * star (phase k d) = 1 := by
  rw [phase_star, ← phase_add, add_neg_cancel, phase_zero]

theorem phase_one_iff (k d : V3 ℝ) : phase k d = 1 ↔ ∃ m : ℤ, k ⬝ᵥ d = 2 * Real.pi * m := by
  unfold phase
  rw [Complex.exp_eq_one_iff]
  constructor
  · rintro ⟨m, hm⟩
    refine ⟨-m, ?_⟩
    have : ((k ⬝ᵥ d : ℝ) : ℂ) = ((2 * Real.pi * (-m : ℤ) : ℝ) : ℂ) := by
      push_cast
      have := congrArg (fun z => I * z) hm
      linear_combination this + (((k ⬝ᵥ d : ℝ) : ℂ) + m * (2 * Real.pi)) * I_mul_I
    exact_mod_cast this
  · rintro ⟨m, hm⟩
    refine ⟨-m, ?_⟩
    rw [hm]
    push_cast
    ring

theorem absolute_add (lat : M3 ℝ) (x y : V3 ℝ) : absolute lat (x + y) = absolute lat x + absolute lat y := by
  funext c
  simp only [absolute, Fin.sum_univ_three, Pi.add_apply]
  ring

theorem Cell.rel_add (R R' : Cell) : (R + R').rel = R.rel + R'.rel := by
  funext i
  fin_cases i <;> simp [Cell.rel]

theorem Cell.rel_neg (R : Cell) : (-R).rel = -R.rel := by
  funext i
  fin_cases i <;> simp [Cell.rel]

theorem absolute_neg (lat : M3 ℝ) (x : V3 ℝ) : absolute lat (-x) = -absolute lat x := by
  funext c
  simp only [absolute, Fin.sum_univ_three, Pi.neg_apply]
  ring

theorem vector_eq (lat : M3 ℝ) (pos : Atom → V3 ℝ) (a b : Atom) (R : Cell) : MagnonObj.vector lat pos (a, b, R) =
    absolute lat R.rel + (absolute lat (pos b) - absolute lat (pos a)) := by
  funext c
  simp only [MagnonObj.vector, EnergyObj.lattice, absolute, Cell.rel, Fin.sum_univ_three, Pi.add_apply, Pi.sub_apply,
    Matrix.cons_val_zero, Matrix.cons_val_one, Matrix.cons_val]
  ring

/-- The factor of a cell. -/
noncomputable def cellPhase (lat : M3 ℝ) (G : V3 ℝ) (R : Cell) : ℂ := phase G (absolute lat R.rel)

theorem cellPhase_add (lat : M3 ℝ) (G : V3 ℝ) (R R' : Cell) : cellPhase lat G (R + R') = cellPhase lat G R * cellPhase lat G R' := by
  rw [cellPhase, Cell.rel_add, absolute_add, phase_add]; rfl

theorem cellPhase_neg (lat : M3 ℝ) (G : V3 ℝ) (R : Cell) : cellPhase lat G (-R) = star (cellPhase lat G R) := by
  rw [cellPhase, Cell.rel_neg, absolute_neg, ← phase_star]; rfl

theorem cellPhase_unit (lat : M3 ℝ) (G : V3 ℝ) (R : Cell) : cellPhase lat G R * star (cellPhase lat G R) = 1 := phase_unit _ _

/-! ### Orthogonality -/

namespace Supercell

variable {n : ℕ} {f : Supercell n}

theorem sum_char (hc : ∀ R, ∃! p : Fin n × Cell, f.sub p.2 + f.rep p.1 = R) (χ : Cell → ℂ) (hadd : ∀ R R', χ (R + R') = χ R * χ R')
    (hsub : ∀ R, χ (f.sub R) = 1) (hne : ∃ R, χ R ≠ 1) : ∑ m, χ (f.rep m) = 0 := by
  obtain ⟨R0, hR0⟩ := hne
  choose q hq huniq using hc
  let σ : Fin n → Fin n := fun m => (q (R0 + f.rep m)).1
  have hσ : Function.Injective σ := by
    intro m m' e
    have e1 := hq (R0 + f.rep m)
    have e2 := hq (R0 + f.rep m')
    have e' : (q (R0 + f.rep m)).1 = (q (R0 + f.rep m')).1 := e
    simp only [e'] at e1
    simp only at e2
    have e3 : f.sub ((q (R0 + f.rep m')).2 - (q (R0 + f.rep m)).2) + f.rep m = f.sub 0 + f.rep m' := by
      rw [map_sub, map_zero, zero_add]
      calc _ = (f.sub (q (R0 + f.rep m')).2 + f.rep (q (R0 + f.rep m')).1) -
            (f.sub (q (R0 + f.rep m)).2 + f.rep (q (R0 + f.rep m')).1) + f.rep m := by abel
        _ = _ := by rw [e1, e2]; abel
    have u1 := huniq _ ((q (R0 + f.rep m')).2 - (q (R0 + f.rep m)).2 |> fun x => (m, x)) e3
    have u2 := huniq (f.sub 0 + f.rep m') (m', 0) rfl
    exact congrArg Prod.fst (u1.trans u2.symm)
  have hb : Function.Bijective σ := Finite.injective_iff_bijective.1 hσ
  have hval : ∀ m, χ R0 * χ (f.rep m) = χ (f.rep (σ m)) := by
    intro m
    rw [← hadd, ← hq (R0 + f.rep m)]
    simp only [hadd, hsub, one_mul]
    rfl
  have hs : χ R0 * ∑ m, χ (f.rep m) = ∑ m, χ (f.rep m) := by
    rw [Finset.mul_sum, Finset.sum_congr rfl fun m _ => hval m]
    exact hb.sum_comp fun m => χ (f.rep m)
  have : (χ R0 - 1) * ∑ m, χ (f.rep m) = 0 := by rw [sub_mul, hs, one_mul, sub_self]
  rcases mul_eq_zero.1 this with h | h
  · exact absurd (sub_eq_zero.1 h) hR0
  · exact h

theorem cellPhase_sub {G : V3 ℝ} (hlat : ∀ R, absolute lat' (Cell.rel R) = absolute lat (f.sub R).rel)
    (hG : ∀ R, ∃ m : ℤ, G ⬝ᵥ absolute lat' (Cell.rel R) = 2 * Real.pi * m) (R : Cell) : cellPhase lat G (f.sub R) = 1 := by
  rw [cellPhase, phase_one_iff, ← hlat]
  exact hG R

theorem nonempty (hc : ∀ R, ∃! p : Fin n × Cell, f.sub p.2 + f.rep p.1 = R) : n ≠ 0 := by
  rintro rfl
  obtain ⟨p, _⟩ := hc 0
  exact p.1.elim0

variable {G : Fin n → V3 ℝ}

/-- Orthogonality of the waves. -/
theorem sum_waves (hc : ∀ R, ∃! p : Fin n × Cell, f.sub p.2 + f.rep p.1 = R)
    (hlat : ∀ R, absolute lat' (Cell.rel R) = absolute lat (f.sub R).rel) (hG : FoldedWaves lat lat' G) (m m' : Fin n) :
    ∑ t, cellPhase lat (G t) (f.rep m) * star (cellPhase lat (G t) (f.rep m')) = if m = m' then (n : ℂ) else 0 := by
  have hn : (n : ℂ) ≠ 0 := Nat.cast_ne_zero.2 (nonempty hc)
  let X : Matrix (Fin n) (Fin n) ℂ := .of fun t m => cellPhase lat (G t) (f.rep m)
  have hX : X * ((n : ℂ)⁻¹ • Xᴴ) = 1 := by
    ext t t'
    rw [Matrix.mul_smul, Matrix.smul_apply, mul_apply, one_apply, smul_eq_mul]
    simp only [X, conjTranspose_apply, of_apply]
    by_cases h : t = t'
    · subst h
      simp only [cellPhase_unit, if_true, Finset.sum_const, Finset.card_univ, Fintype.card_fin, nsmul_eq_mul, mul_one]
      exact inv_mul_cancel₀ hn
    · rw [if_neg h]
      have := sum_char hc (fun R => cellPhase lat (G t) R * star (cellPhase lat (G t') R)) (fun R R' => by
        simp only [cellPhase_add, star_mul']; ring) (fun R => by
        simp only [cellPhase_sub hlat (hG.trivial t), cellPhase_sub hlat (hG.trivial t'), star_one, mul_one]) (by
        obtain ⟨R, hR⟩ := hG.distinct t t' h
        refine ⟨R, fun e => ?_⟩
        have e' : phase (G t - G t') (absolute lat R.rel) = 1 := by
          rw [sub_eq_add_neg, phase_add_left, ← phase_star_left]; exact e
        obtain ⟨z, hz⟩ := (phase_one_iff _ _).1 e'
        exact hR z hz)
      rw [this, mul_zero]
  have hX' : ((n : ℂ)⁻¹ • Xᴴ) * X = 1 := mul_eq_one_comm.1 hX
  have := congrFun (congrFun hX' m') m
  rw [Matrix.smul_mul, Matrix.smul_apply, mul_apply, one_apply, smul_eq_mul] at this
  simp only [X, conjTranspose_apply, of_apply] at this
  rw [inv_mul_eq_iff_eq_mul₀ hn] at this
  rw [Finset.sum_congr rfl fun t _ => mul_comm _ _, this]
  by_cases h : m = m'
  · rw [if_pos h, if_pos h.symm, mul_one]
  · rw [if_neg h, if_neg (Ne.symm h), mul_zero]

open Classical in
/-- The waves distinguish the lattice of the supercell. -/
theorem sum_range (hc : ∀ R, ∃! p : Fin n × Cell, f.sub p.2 + f.rep p.1 = R)
    (hlat : ∀ R, absolute lat' (Cell.rel R) = absolute lat (f.sub R).rel) (hG : FoldedWaves lat lat' G) (R : Cell) :
    ∑ t, cellPhase lat (G t) R = if R ∈ Set.range f.sub then (n : ℂ) else 0 := by
  obtain ⟨⟨m0, R0⟩, h0, _⟩ := hc 0
  obtain ⟨⟨m, R1⟩, h1, hu⟩ := hc R
  simp only at h0 h1 hu
  have hp : ∀ t R, cellPhase lat (G t) (f.sub R) = 1 := fun t R => cellPhase_sub hlat (hG.trivial t) R
  have h00 : ∀ t, cellPhase lat (G t) (f.rep m0) = 1 := by
    intro t
    have : f.rep m0 = f.sub (-R0) := by rw [map_neg]; exact eq_neg_of_add_eq_zero_right h0
    rw [this, hp]
  have e : ∀ t, cellPhase lat (G t) R = cellPhase lat (G t) (f.rep m) * star (cellPhase lat (G t) (f.rep m0)) := by
    intro t
    rw [← h1, cellPhase_add, hp, h00, star_one, one_mul, mul_one]
  rw [Finset.sum_congr rfl fun t _ => e t, sum_waves hc hlat hG]
  by_cases h : m = m0
  · subst h
    rw [if_pos rfl, if_pos]
    refine ⟨R1 - R0, ?_⟩
    rw [map_sub, ← h1]
    have := eq_neg_of_add_eq_zero_right h0
    rw [this]; abel
  · rw [if_neg h, if_neg]
    rintro ⟨R2, rfl⟩
    have := hu (m0, R2 + R0) (by simp only [map_add]; rw [add_assoc, h0, add_zero])
    exact h (congrArg Prod.fst this).symm

/-! ### The matrices of the two objects -/

section Objects

variable (hf : f.Holds (t.magneticAtoms order) (t'.magneticAtoms order') spin spin' s s')
  (hm : f.Moves (t.magneticAtoms order) lat lat' pos pos' spinVec spinVec')
  (h : ObjSpec order lat pos spinVec s o t items) (hord : ∀ l, (order l).Perm l)
  (h' : ObjSpec order' lat' pos' spinVec' s' o' t' items') (hord' : ∀ l, (order' l).Perm l)

include hf h hord h' hord' in
/-- The numbers of the atoms. -/
theorem number : ∃ e : Fin o.N × Fin n ≃ Fin o'.N, ∀ i m,
    atomAt o' (t'.magneticAtoms order') (e (i, m)) = f.name (atomAt o (t.magneticAtoms order) i) m := by
  have hex : ∀ p : Fin o.N × Fin n, ∃ j : Fin o'.N,
      atomAt o' (t'.magneticAtoms order') j = f.name (atomAt o (t.magneticAtoms order) p.1) p.2 :=
    fun p => atomAt_exists h' hord' ((hf.atoms _).2 ⟨_, atomAt_mem h hord p.1, p.2, rfl⟩)
  choose g hg using hex
  refine ⟨Equiv.ofBijective g ⟨fun p q hpq => ?_, fun j => ?_⟩, fun i m => hg (i, m)⟩
  · have := (hg p).symm.trans ((congrArg _ hpq).trans (hg q))
    obtain ⟨e1, e2⟩ := hf.inj _ (atomAt_mem h hord p.1) _ (atomAt_mem h hord q.1) _ _ this
    exact Prod.ext (atomAt_inj h hord e1) e2
  · obtain ⟨a, ha, m, e⟩ := (hf.atoms _).1 (atomAt_mem h' hord' j)
    obtain ⟨i, rfl⟩ := atomAt_exists h hord ha
    exact ⟨(i, m), atomAt_inj h' hord' ((hg (i, m)).trans e)⟩

include hf h h' in
/-- The couplings in the supercell. -/
theorem couple_super (hr : MagnonReady order spinVec s spin) (hR : St.Renoted Unit spin s t)
    (hr' : MagnonReady order' spinVec' s' spin') (hR' : St.Renoted Unit spin' s' t')
    (h0 : ∀ a ∈ t.magneticAtoms order, spin a ≠ 0) {a b : Atom} (ha : a ∈ t.magneticAtoms order)
    (hb : b ∈ t.magneticAtoms order) (m m' : Fin n) (R : Cell) :
    couple (likeItems t') (f.name a m, f.name b m', R) = couple (likeItems t) (a, b, f.sub R + f.rep m' - f.rep m) := by
  have e1 := couple_energy h hr hR (a, b, f.sub R + f.rep m' - f.rep m)
  have e2 := couple_energy h' hr' hR' (f.name a m, f.name b m', R)
  simp only at e1 e2
  rw [hf.spins a ha, hf.spins b hb, hf.bonds a ha b hb, hf.sites a ha] at e2
  have hcond : ((f.name a m, f.name b m', R) : Bond) = (f.name a m, f.name a m, (0, 0, 0)) ↔
      ((a, b, f.sub R + f.rep m' - f.rep m) : Bond) = (a, a, (0, 0, 0)) := by
    have hz : ((0, 0, 0) : Cell) = 0 := rfl
    simp only [Prod.mk.injEq, true_and, hz]
    constructor
    · rintro ⟨e1, e3⟩
      obtain ⟨rfl, rfl⟩ := hf.inj b hb a ha _ _ e1
      have : R = 0 := e3
      subst this
      exact ⟨rfl, by rw [map_zero, zero_add, sub_self]⟩
    · rintro ⟨rfl, e4⟩
      have e3 : f.sub R + f.rep m' = f.sub 0 + f.rep m := by
        rw [map_zero, zero_add]; exact sub_eq_zero.1 e4
      have := (hf.cells (f.sub 0 + f.rep m)).unique (y₁ := (m', R)) (y₂ := (m, 0)) e3 rfl
      simp only [Prod.mk.injEq] at this
      obtain ⟨rfl, rfl⟩ := this
      exact ⟨rfl, rfl⟩
  rw [if_congr hcond rfl rfl, ← e1] at e2
  have e3 := complexM_injective e2
  have hne : spin a * spin b ≠ 0 := mul_ne_zero (h0 a ha) (h0 b hb)
  have := congrArg (fun x => (spin a * spin b)⁻¹ • x) e3
  simpa only [smul_smul, inv_mul_cancel₀ hne, one_smul] using this

variable {e : Fin o.N × Fin n ≃ Fin o'.N}
  (he : ∀ i m, atomAt o' (t'.magneticAtoms order') (e (i, m)) = f.name (atomAt o (t.magneticAtoms order) i) m)
  (hcp : ∀ a ∈ t.magneticAtoms order, ∀ b ∈ t.magneticAtoms order, ∀ m m' R,
    couple (likeItems t') (f.name a m, f.name b m', R) = couple (likeItems t) (a, b, f.sub R + f.rep m' - f.rep m))

/-- The cells with a coupling between two atoms. -/
noncomputable def support (t : St ℝ) : Finset Cell := by
  classical exact ((likeItems t).map fun p => p.1.2.2).toFinset

theorem support_spec (t : St ℝ) (a b : Atom) (R : Cell) (hR : R ∉ support t) : couple (likeItems t) (a, b, R) = 0 := by
  refine couple_absent fun p hp e => hR ?_
  unfold support
  rw [List.mem_toFinset, List.mem_map]
  exact ⟨p, hp, by rw [e]⟩

include hf hm h hord h' hord' he hcp in
open Classical in
/-- `J` of the supercell is the part of the sum over the cells. -/
theorem J_part (k : V3 ℝ) (i j : Fin o.N) (m m' : Fin n) :
    o'.J t'.cell k (e (i, m)) (e (j, m')) = ∑ R ∈ support t, if R - (f.rep m' - f.rep m) ∈ Set.range f.sub then
      phase k (MagnonObj.vector lat pos (atomAt o (t.magneticAtoms order) i, atomAt o (t.magneticAtoms order) j, R)) •
        complexM (couple (likeItems t) (atomAt o (t.magneticAtoms order) i, atomAt o (t.magneticAtoms order) j, R)) else 0 := by
  set a := atomAt o (t.magneticAtoms order) i with ha
  set b := atomAt o (t.magneticAtoms order) j with hb
  have ha' : a ∈ t.magneticAtoms order := atomAt_mem h hord i
  have hb' : b ∈ t.magneticAtoms order := atomAt_mem h hord j
  have hinj : Function.Injective fun R => f.sub R + (f.rep m' - f.rep m) := by
    intro R R' hRR
    have e1 : f.sub R + f.rep m = f.sub R' + f.rep m := by rw [add_right_cancel hRR]
    exact congrArg Prod.snd ((hf.cells (f.sub R' + f.rep m)).unique (y₁ := (m, R)) (y₂ := (m, R')) e1 rfl)
  have hvec : ∀ R, MagnonObj.vector lat' pos' (f.name a m, f.name b m', R) =
      MagnonObj.vector lat pos (a, b, f.sub R + (f.rep m' - f.rep m)) := by
    intro R
    rw [vector_eq, vector_eq, hm.lattice, hm.positions a ha', hm.positions b hb', absolute_add, absolute_add, sub_eq_add_neg (f.rep m'),
      Cell.rel_add, Cell.rel_add, Cell.rel_neg, absolute_add, absolute_add, absolute_neg]
    abel
  rw [J_cells h' hord' k (e (i, m)) (e (j, m')) ((support t).preimage _ hinj.injOn)]
  · simp only [he, ← ha, ← hb, hvec, hcp a ha' b hb', add_sub_assoc]
    rw [Finset.sum_preimage' (fun R => f.sub R + (f.rep m' - f.rep m)) (support t) hinj.injOn fun R =>
      phase k (MagnonObj.vector lat pos (a, b, R)) • complexM (couple (likeItems t) (a, b, R)), Finset.sum_filter]
    refine Finset.sum_congr rfl fun R _ => if_congr ?_ rfl rfl
    constructor
    · rintro ⟨R', rfl⟩; exact ⟨R', by simp only [add_sub_cancel_right]⟩
    · rintro ⟨R', hR'⟩; exact ⟨R', by simp only [hR']; abel⟩
  · intro R hR
    rw [he, he, ← ha, ← hb, hcp a ha' b hb', add_sub_assoc]
    exact support_spec t a b _ fun hR' => hR (Finset.mem_preimage.2 hR')

/-- The factor of the atom `i` in the cell `m` of the supercell. -/
noncomputable def atomPhase (f : Supercell n) (lat : M3 ℝ) (pos : Atom → V3 ℝ) (G : V3 ℝ) (a : Atom) (m : Fin n) : ℂ :=
  phase G (absolute lat (pos a)) * cellPhase lat G (f.rep m)

include hf hm h hord h' hord' he hcp in
/-- `J` of the supercell from `J` of the crystal. -/
theorem J_super (hG : FoldedWaves lat lat' G) (k : V3 ℝ) (i j : Fin o.N) (m m' : Fin n) :
    o'.J t'.cell k (e (i, m)) (e (j, m')) = (1 / n : ℂ) • ∑ u,
      (f.atomPhase lat pos (G u) (atomAt o (t.magneticAtoms order) i) m *
        star (f.atomPhase lat pos (G u) (atomAt o (t.magneticAtoms order) j) m')) • o.J t.cell (k + G u) i j := by
  classical
  have hn : (n : ℂ) ≠ 0 := Nat.cast_ne_zero.2 (nonempty hf.cells)
  rw [J_part hf hm h hord h' hord' he hcp]
  simp only [fun u => J_cells h hord (k + G u) i j (support t) fun R hR => support_spec t _ _ R hR]
  set a := atomAt o (t.magneticAtoms order) i
  set b := atomAt o (t.magneticAtoms order) j
  simp only [Finset.smul_sum]
  rw [Finset.sum_comm]
  refine Finset.sum_congr rfl fun R _ => ?_
  have hterm : ∀ u, (1 / n : ℂ) • (f.atomPhase lat pos (G u) a m * star (f.atomPhase lat pos (G u) b m')) •
      phase (k + G u) (MagnonObj.vector lat pos (a, b, R)) • complexM (couple (likeItems t) (a, b, R)) =
      cellPhase lat (G u) (R - (f.rep m' - f.rep m)) •
        ((1 / n : ℂ) • phase k (MagnonObj.vector lat pos (a, b, R)) • complexM (couple (likeItems t) (a, b, R))) := by
    intro u
    have hx : f.atomPhase lat pos (G u) a m * star (f.atomPhase lat pos (G u) b m') *
        phase (G u) (MagnonObj.vector lat pos (a, b, R)) = cellPhase lat (G u) (R - (f.rep m' - f.rep m)) := by
      have u1 := phase_unit (G u) (absolute lat (pos a))
      have u2 := phase_unit (G u) (absolute lat (pos b))
      rw [vector_eq, phase_add, sub_eq_add_neg, phase_add, ← phase_star, atomPhase, atomPhase, star_mul', show R - (f.rep m' - f.rep m) = R + (f.rep m + -f.rep m') by abel,
        cellPhase_add, cellPhase_add, cellPhase_neg]
      rw [show phase (G u) (absolute lat R.rel) = cellPhase lat (G u) R from rfl]
      linear_combination (cellPhase lat (G u) (f.rep m) * star (cellPhase lat (G u) (f.rep m')) * cellPhase lat (G u) R *
        (phase (G u) (absolute lat (pos b)) * star (phase (G u) (absolute lat (pos b))))) * u1 +
        cellPhase lat (G u) (f.rep m) * star (cellPhase lat (G u) (f.rep m')) * cellPhase lat (G u) R * u2
    rw [phase_add_left, smul_smul, smul_smul, smul_smul, smul_smul, ← hx]
    congr 1
    ring
  rw [Finset.sum_congr rfl fun u _ => hterm u, ← Finset.sum_smul, sum_range hf.cells hm.lattice hG]
  by_cases hR : R - (f.rep m' - f.rep m) ∈ Set.range f.sub
  · rw [if_pos hR, if_pos hR, smul_smul, mul_one_div_cancel hn, one_smul]
  · rw [if_neg hR, if_neg hR, zero_smul]

include hf hm h hord h' hord' he hcp in
/-- The sum over the cells of the supercell. -/
theorem J_sum (k : V3 ℝ) (i j : Fin o.N) (m : Fin n) :
    ∑ m', o'.J t'.cell k (e (i, m)) (e (j, m')) = o.J t.cell k i j := by
  classical
  rw [J_cells h hord k i j (support t) fun R hR => support_spec t _ _ R hR]
  simp only [J_part hf hm h hord h' hord' he hcp]
  rw [Finset.sum_comm]
  refine Finset.sum_congr rfl fun R _ => ?_
  obtain ⟨⟨m0, R0⟩, h0, hu⟩ := hf.cells (R + f.rep m)
  simp only at h0 hu
  rw [Finset.sum_eq_single m0]
  · rw [if_pos ⟨R0, by rw [eq_sub_of_add_eq h0]; abel⟩]
  · intro m1 _ hm1
    rw [if_neg]
    rintro ⟨R1, hR1⟩
    have := hu (m1, R1) (by simp only [hR1]; abel)
    exact hm1 (congrArg Prod.fst this)
  · simp

include hm h hord h' hord' he in
/-- Spins and axes of the atoms. -/
theorem axes_super (i : Fin o.N) (m : Fin n) : o'.S.getD (e (i, m)) 0 = o.S.getD i 0 ∧ o'.u.getD (e (i, m)) 0 = o.u.getD i 0 ∧
    o'.v.getD (e (i, m)) 0 = o.v.getD i 0 := by
  obtain ⟨v, hv, e1, e2, e3⟩ := axes_at h hord i
  obtain ⟨v', hv', e1', e2', e3'⟩ := axes_at h' hord' (e (i, m))
  rw [he, hm.vectors _ (atomAt_mem h hord i), hv] at hv'
  simp only [Option.some.injEq] at hv'
  subst hv'
  exact ⟨by rw [e1, e1'], by rw [e2, e2'], by rw [e3, e3']⟩

/-- The numbers of the rows. -/
def rows {N N' : ℕ} (e : Fin N × Fin n ≃ Fin N') : (Fin N ⊕ Fin N) × Fin n ≃ Fin N' ⊕ Fin N' :=
  (Equiv.sumProdDistrib (Fin N) (Fin N) (Fin n)).trans (Equiv.sumCongr e e)

theorem waves_neg (hG : FoldedWaves lat lat' G) : FoldedWaves lat lat' fun u => -G u := by
  refine ⟨fun u R => ?_, fun u u' hu => ?_⟩
  · obtain ⟨z, hz⟩ := hG.trivial u R
    exact ⟨-z, by rw [neg_dotProduct, hz]; push_cast; ring⟩
  · obtain ⟨R, hR⟩ := hG.distinct u u' hu
    refine ⟨R, fun z hz => hR (-z) ?_⟩
    rw [show -G u - -G u' = -(G u - G u') by abel, neg_dotProduct] at hz
    push_cast
    linarith

theorem atomPhase_star (f : Supercell n) (lat : M3 ℝ) (pos : Atom → V3 ℝ) (K : V3 ℝ) (a : Atom) (m : Fin n) :
    star (f.atomPhase lat pos K a m) = f.atomPhase lat pos (-K) a m := by
  rw [atomPhase, atomPhase, star_mul', phase_star_left, cellPhase, phase_star_left]
  rfl

theorem dot_smul_sum {ι : Type*} (S : Finset ι) (c : ℂ) (z : ι → ℂ) (M : ι → M3 ℂ) (x y : V3 ℂ) :
    x ⬝ᵥ ((c • ∑ u ∈ S, z u • M u) *ᵥ y) = c * ∑ u ∈ S, z u * (x ⬝ᵥ (M u *ᵥ y)) := by
  rw [smul_mulVec, dotProduct_smul, smul_eq_mul, sum_mulVec, dotProduct_sum]
  congr 1
  refine Finset.sum_congr rfl fun u _ => ?_
  rw [smul_mulVec, dotProduct_smul, smul_eq_mul]

include hf hm h hord h' hord' he hcp in
/-- `h(k)` of the supercell falls into blocks. -/
theorem folds (hG : FoldedWaves lat lat' G) (k : V3 ℝ) :
    Folds (o'.callH t'.cell k).1 (fun u => (o.callH t.cell (k + G u)).1) (rows e)
      fun u r m => star (f.atomPhase lat pos (G u) (atomAt o (t.magneticAtoms order) (r.elim id id)) m) := by
  have hn : (n : ℂ) ≠ 0 := Nat.cast_ne_zero.2 (nonempty hf.cells)
  let P : Fin n → Fin o.N → Fin n → ℂ := fun u i m => f.atomPhase lat pos (G u) (atomAt o (t.magneticAtoms order) i) m
  have hP : ∀ i m m', ∑ u, star (P u i m) * P u i m' = if m = m' then (n : ℂ) else 0 := by
    intro i m m'
    have := sum_waves hf.cells hm.lattice hG m' m
    rw [if_congr (eq_comm (a := m') (b := m)) rfl rfl] at this
    rw [← this]
    refine Finset.sum_congr rfl fun u _ => ?_
    have hu := phase_unit (G u) (absolute lat (pos (atomAt o (t.magneticAtoms order) i)))
    simp only [P, atomPhase, star_mul']
    linear_combination (cellPhase lat (G u) (f.rep m') * star (cellPhase lat (G u) (f.rep m))) * hu
  have hax := axes_super hm h hord h' hord' he
  have hroot : ∀ i m j m', o'.root (e (i, m)) (e (j, m')) = o.root i j := by
    intro i m j m'
    unfold root
    rw [(hax i m).1, (hax j m').1]
  have hJ := J_super hf hm h hord h' hord' he hcp hG
  have hJn : ∀ (k : V3 ℝ) i m j m', o'.J t'.cell (-k) (e (i, m)) (e (j, m')) = (1 / n : ℂ) • ∑ u,
      (star (P u i m) * P u j m') • o.J t.cell (-(k + G u)) i j := by
    intro k i m j m'
    rw [J_super hf hm h hord h' hord' he hcp (waves_neg hG)]
    congr 1
    refine Finset.sum_congr rfl fun u _ => ?_
    rw [← atomPhase_star, ← atomPhase_star, star_star, neg_add]
  have hA : ∀ (k : V3 ℝ) i m j m', o'.A t'.cell k (e (i, m)) (e (j, m')) = (1 / n : ℂ) * ∑ u,
      star (P u i m) * o.A t.cell (k + G u) i j * P u j m' := by
    intro k i m j m'
    unfold A
    rw [hroot, (hax i m).2.1, (hax j m').2.1, hJn, dot_smul_sum, mul_left_comm, Finset.mul_sum]
    congr 1
    exact Finset.sum_congr rfl fun u _ => by ring
  have hAm : ∀ (k : V3 ℝ) i m j m', star (o'.A t'.cell (-k) (e (i, m)) (e (j, m'))) = (1 / n : ℂ) * ∑ u,
      star (P u i m) * star (o.A t.cell (-(k + G u)) i j) * P u j m' := by
    intro k i m j m'
    unfold A
    rw [hroot, (hax i m).2.1, (hax j m').2.1, neg_neg, hJ, dot_smul_sum, mul_left_comm, Finset.mul_sum, star_mul', star_sum]
    congr 1
    · simp
    · refine Finset.sum_congr rfl fun u _ => ?_
      rw [neg_neg]
      simp only [P, star_mul', star_star]
      ring
  have hB : ∀ (k : V3 ℝ) i m j m', o'.B t'.cell k (e (i, m)) (e (j, m')) = (1 / n : ℂ) * ∑ u,
      star (P u i m) * o.B t.cell (k + G u) i j * P u j m' := by
    intro k i m j m'
    unfold B
    rw [hroot, (hax i m).2.1, (hax j m').2.1, hJn, dot_smul_sum, mul_left_comm, Finset.mul_sum]
    congr 1
    exact Finset.sum_congr rfl fun u _ => by ring
  have hBs : ∀ (k : V3 ℝ) i m j m', star (o'.B t'.cell k (e (j, m')) (e (i, m))) = (1 / n : ℂ) * ∑ u,
      star (P u i m) * star (o.B t.cell (k + G u) j i) * P u j m' := by
    intro k i m j m'
    rw [hB, star_mul', star_sum]
    congr 1
    · simp
    · refine Finset.sum_congr rfl fun u _ => ?_
      simp only [star_mul', star_star]
      ring
  have hC : ∀ i m j m', o'.freshC t'.cell (e (i, m)) (e (j, m')) = (1 / n : ℂ) * ∑ u,
      star (P u i m) * o.freshC t.cell i j * P u j m' := by
    intro i m j m'
    by_cases hij : i = j
    · subst hij
      rw [Finset.sum_congr rfl fun u _ => mul_right_comm _ _ _, ← Finset.sum_mul, hP]
      by_cases hmm : m = m'
      · subst hmm
        rw [if_pos rfl, ← mul_assoc, one_div_mul_cancel hn, one_mul]
        unfold freshC
        rw [if_pos rfl, if_pos rfl, Finset.sum_range, Finset.sum_range, ← e.sum_comp, Fintype.sum_prod_type]
        refine Finset.sum_congr rfl fun l _ => ?_
        simp only [fun m' => (hax l m').1, fun m' => (hax l m').2.2, (hax i m).2.2]
        rw [← J_sum hf hm h hord h' hord' he hcp 0 i l m, ← Finset.mul_sum, sum_mulVec, dotProduct_sum]
      · rw [if_neg hmm, zero_mul, mul_zero]
        unfold freshC
        rw [if_neg]
        intro hh
        exact hmm (congrArg Prod.snd (e.injective (Fin.ext hh)))
    · have hz : o.freshC t.cell i j = 0 := if_neg fun hh => hij (Fin.ext hh)
      rw [hz]
      simp only [mul_zero, zero_mul, Finset.sum_const_zero]
      refine if_neg fun hh => hij ?_
      exact congrArg Prod.fst (e.injective (Fin.ext hh))
  refine ⟨nonempty hf.cells, ?_, ?_, ?_⟩
  · rintro (r | r) m <;> rfl
  · intro r m m'
    have := hP (r.elim id id) m m'
    simpa only [star_star] using this
  · have h2 : ∀ {M : ℕ} (X : Matrix (Fin M) (Fin M) ℂ) (i j : Fin M), (2 • X) i j = 2 * X i j := fun X i j => by
      rw [two_smul, two_mul]; rfl
    have r1 : ∀ i m, rows e (Sum.inl i, m) = Sum.inl (e (i, m)) := fun _ _ => rfl
    have r2 : ∀ i m, rows e (Sum.inr i, m) = Sum.inr (e (i, m)) := fun _ _ => rfl
    intro r m c m'
    simp only [callH_fresh _ h.C, callH_fresh _ h'.C]
    rcases r with i | i <;> rcases c with j | j <;>
      simp only [r1, r2, fromBlocks_apply₁₁, fromBlocks_apply₁₂, fromBlocks_apply₂₁,
        fromBlocks_apply₂₂, Matrix.sub_apply, h2, block, of_apply, conjTranspose_apply, Matrix.map_apply, Sum.elim_inl, Sum.elim_inr,
        id, star_star]
    · rw [hA, hC, mul_left_comm, mul_left_comm (2 : ℂ), ← mul_sub, Finset.mul_sum, Finset.mul_sum, ← Finset.sum_sub_distrib]
      congr 1
      exact Finset.sum_congr rfl fun u _ => by simp only [P]; ring
    · rw [hB, mul_left_comm, Finset.mul_sum]
      congr 1
      exact Finset.sum_congr rfl fun u _ => by simp only [P]; ring
    · rw [hBs, mul_left_comm, Finset.mul_sum]
      congr 1
      exact Finset.sum_congr rfl fun u _ => by simp only [P]; ring
    · rw [hAm, hC, mul_left_comm, mul_left_comm (2 : ℂ), ← mul_sub, Finset.mul_sum, Finset.mul_sum, ← Finset.sum_sub_distrib]
      congr 1
      exact Finset.sum_congr rfl fun u _ => by simp only [P]; ring

end Objects

end Supercell

end Magnopy
