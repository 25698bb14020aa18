import Verif.Lemmas.Reversal
import Verif.Spec.Reversal
import Verif.Props.Describe
import Verif.Props.Dispersion

/-!
# C83: reversed spins and reversed wave vectors
-/

set_option autoImplicit false
set_option linter.unusedSectionVars false

namespace Magnopy

open PyDict Matrix Complex MagnonObj

variable {order : List Atom → List Atom} {lat : M3 ℝ} {pos : Atom → V3 ℝ} {spinVec : Atom → Option (V3 ℝ)} {s : St ℝ}

/-- **C83.** Reversing all spins has the same effect on the energies as reversing the wave vector: the arrays that `omega`
reports for the reversed spins at `-k` and for the given spins at `k` are the same, for all Hamiltonians with symmetric
on-site parameters, wave vectors and flags, whether the state is stable or not, and for all correct routines of linear
algebra. -/
theorem C83_reversal (hord : ∀ l, (order l).Perm l) {spin : Atom → ℝ} (hr : MagnonReady order spinVec s spin)
    (hs : s.OnSiteSymmetric) (h0 : ∀ a ∈ s.magneticAtoms order, spinVec a ≠ some 0) :
    ∃ o t o', init order lat pos spinVec s = (.ok o, t) ∧ init order lat pos (reverse spinVec) s = (.ok o', t) ∧ o'.N = o.N ∧
      ∀ k chol eig sort chol' eig' sort', IsCholesky chol → IsEig eig → IsSort sort → IsCholesky chol' →
        IsEig eig' → IsSort sort' → ∀ (junk : Mat o.N) (junk' : Mat o'.N) (z rg im : Bool),
          (o'.omega t.cell (Colpa.solve chol' eig' sort') junk' z rg im (-k)).1.1 =
            (o.omega t.cell (Colpa.solve chol eig sort) junk z rg im k).1.1 := by
  obtain ⟨o, t, items, h1, h2, h3, h4, h5⟩ := ready_setup hord lat pos hr
  have hsym := h3.symmetric hr.complete hs (St.getNotation_ok_iff.1 h2.flags).1
  have h1' := init_reversed (spinVec' := reverse spinVec) h1 fun a _ => rfl
  obtain ⟨z, hz⟩ := flipped h2 hord (by rw [h4]; exact h0)
  refine ⟨o, t, o.reversed, h1, h1', rfl, ?_⟩
  intro k chol eig sort chol' eig' sort' hc he hso hc' he' hso' junk junk' zz rg im
  refine omegaOf_conjugate hc he hso hc' he' hso' (Equiv.refl _) (Sum.elim z (star z)) ?_
    (C39_private hord hr.inv hr.wf.alloc h1 hsym k) (fun r c => ?_) junk junk' zz rg im
  · rintro (i | i)
    · exact hz.unit i
    · rw [Sum.elim_inr, Pi.star_apply, star_star, mul_comm]; exact hz.unit i
  · have := h_reversed (cell := t.cell) hz h2.C h2.v k r c
    rw [← this]
    rcases r with r | r <;> rcases c with c | c <;> rfl

/-- **C83, symmetries.** If a change of names, cells and axes is a symmetry of the magnet and its state, the energies at the
transformed wave vector are the same. -/
theorem C83_symmetry_partial {f : Description} (hord : ∀ l, (order l).Perm l) {spin : Atom → ℝ} (hr : MagnonReady order spinVec s spin)
    (hs : s.OnSiteSymmetric) (hf : f.Holds (s.magneticAtoms order) (s.magneticAtoms order) spin spin s s)
    (hm : f.Moves (s.magneticAtoms order) lat lat pos pos spinVec spinVec)
    (ha : f.turn = 1 ∨ ∀ a ∈ s.magneticAtoms order, ∀ v, spinVec a = some v → v ≠ 0 ∧ OwnAxis v ∧ OwnAxis (f.turn *ᵥ v)) :
    ∃ o t, init order lat pos spinVec s = (.ok o, t) ∧
      ∀ k chol eig sort, IsCholesky chol → IsEig eig → IsSort sort → ∀ (junk : Mat o.N) (z rg im : Bool),
        (o.omega t.cell (Colpa.solve chol eig sort) junk z rg im (f.space *ᵥ k)).1.1 =
          (o.omega t.cell (Colpa.solve chol eig sort) junk z rg im k).1.1 := by
  obtain ⟨o, t, o', t', h1, h1', _, h2⟩ := C72_energies_partial hord hord hr hr hs hs hf hm ha
  rw [h1] at h1'
  simp only [Prod.mk.injEq, Except.ok.injEq] at h1'
  obtain ⟨rfl, rfl⟩ := h1'
  exact ⟨o, t, h1, fun k chol eig sort hc he hso junk z rg im => h2 k _ _ _ _ _ _ hc he hso hc he hso junk junk z rg im⟩

/-- **C83, inversion.** If the magnet and its state are symmetric under inversion of space, `omega(-k) = omega(k)`. -/
theorem C83_inversion {f : Description} (hord : ∀ l, (order l).Perm l) {spin : Atom → ℝ} (hr : MagnonReady order spinVec s spin)
    (hs : s.OnSiteSymmetric) (hf : f.Holds (s.magneticAtoms order) (s.magneticAtoms order) spin spin s s)
    (hm : f.Moves (s.magneticAtoms order) lat lat pos pos spinVec spinVec) (hT : f.turn = 1) (hS : f.space = -1) :
    ∃ o t, init order lat pos spinVec s = (.ok o, t) ∧
      ∀ k chol eig sort, IsCholesky chol → IsEig eig → IsSort sort → ∀ (junk : Mat o.N) (z rg im : Bool),
        (o.omega t.cell (Colpa.solve chol eig sort) junk z rg im (-k)).1.1 =
          (o.omega t.cell (Colpa.solve chol eig sort) junk z rg im k).1.1 := by
  obtain ⟨o, t, h1, h2⟩ := C83_symmetry_partial hord hr hs hf hm (Or.inl hT)
  refine ⟨o, t, h1, fun k chol eig sort hc he hso junk z rg im => ?_⟩
  have := h2 k chol eig sort hc he hso junk z rg im
  rwa [hS, neg_mulVec, one_mulVec] at this

/-- **C83, symmetries with time reversal.** If a change of names, cells and axes is a symmetry of the magnet and reverses the
spins of its state, the energies at minus the transformed wave vector are the same. -/
theorem C83_antisymmetry_partial {f : Description} (hord : ∀ l, (order l).Perm l) {spin : Atom → ℝ}
    (hr : MagnonReady order spinVec s spin) (hs : s.OnSiteSymmetric)
    (hf : f.Holds (s.magneticAtoms order) (s.magneticAtoms order) spin spin s s)
    (hm : f.Moves (s.magneticAtoms order) lat lat pos pos spinVec (reverse spinVec))
    (h0 : ∀ a ∈ s.magneticAtoms order, spinVec a ≠ some 0)
    (ha : f.turn = 1 ∨ ∀ a ∈ s.magneticAtoms order, ∀ v, spinVec a = some v → OwnAxis v ∧ OwnAxis (f.turn *ᵥ v)) :
    ∃ o t, init order lat pos spinVec s = (.ok o, t) ∧
      ∀ k chol eig sort, IsCholesky chol → IsEig eig → IsSort sort → ∀ (junk : Mat o.N) (z rg im : Bool),
        (o.omega t.cell (Colpa.solve chol eig sort) junk z rg im (-(f.space *ᵥ k))).1.1 =
          (o.omega t.cell (Colpa.solve chol eig sort) junk z rg im k).1.1 := by
  have hr' : MagnonReady order (reverse spinVec) s spin :=
    ⟨hr.wf, hr.spins, hr.complete, fun a h => by rw [reverse, Option.isSome_map]; exact hr.vectors a h⟩
  obtain ⟨o, t, o', t', h1, h1', _, h2⟩ := C72_energies_partial hord hord hr hr' hs hs hf hm
    (ha.imp id fun h a hm v hv => ⟨fun e => h0 a hm (e ▸ hv), h a hm v hv⟩)
  obtain ⟨o1, t1, o1', h3, h3', hN, h4⟩ := C83_reversal (lat := lat) (pos := pos) hord hr hs h0
  rw [h1] at h3
  rw [h1'] at h3'
  simp only [Prod.mk.injEq, Except.ok.injEq] at h3 h3'
  obtain ⟨rfl, rfl⟩ := h3
  obtain ⟨rfl, rfl⟩ := h3'
  refine ⟨o, _, h1, fun k chol eig sort hc he hso junk z rg im => ?_⟩
  obtain ⟨chol', hc'⟩ := Colpa.exists_chol (N := o'.N)
  obtain ⟨eig', ⟨he', _⟩⟩ := Colpa.exists_eig (N := o'.N)
  obtain ⟨sort', hs'⟩ := Colpa.exists_sort (N := o'.N)
  rw [← h2 k _ _ _ _ _ _ hc he hso hc' he' hs' junk 0 z rg im,
    ← h4 (-(f.space *ᵥ k)) _ _ _ _ _ _ hc he hso hc' he' hs' junk 0 z rg im, neg_neg]

/-! ### Coplanar spins -/

/-- The matrix of half a turn. -/
theorem rotate_pi (n x : V3 ℝ) : rotate n Real.pi x = (Matrix.of fun i j => 2 * n i * n j - if i = j then 1 else 0) *ᵥ x := by
  funext i
  simp only [rotate, Real.cos_pi, Real.sin_pi, zero_smul, add_zero, Pi.add_apply, Pi.smul_apply, smul_eq_mul, dotProduct, mulVec,
    Fin.sum_univ_three, of_apply]
  fin_cases i <;> simp <;> ring

theorem half_rotation {n : V3 ℝ} (hn : IsUnit3 n) : IsRotation (Matrix.of fun i j => 2 * n i * n j - if i = j then 1 else 0) := by
  have h : n 0 ^ 2 + n 1 ^ 2 + n 2 ^ 2 = 1 := by
    have := hn
    simp only [IsUnit3, dotProduct, Fin.sum_univ_three] at this
    linear_combination this
  constructor
  · ext i j
    fin_cases i <;> fin_cases j <;> simp [Matrix.mul_apply, Fin.sum_univ_three]
    · linear_combination 4 * n 0 ^ 2 * h
    · linear_combination 4 * n 0 * n 1 * h
    · linear_combination 4 * n 0 * n 2 * h
    · linear_combination 4 * n 0 * n 1 * h
    · linear_combination 4 * n 1 ^ 2 * h
    · linear_combination 4 * n 1 * n 2 * h
    · linear_combination 4 * n 0 * n 2 * h
    · linear_combination 4 * n 1 * n 2 * h
    · linear_combination 4 * n 2 ^ 2 * h
  · rw [Matrix.det_fin_three]
    simp
    linear_combination 2 * h

/-- **C83, coplanar spins.** If all spins are perpendicular to `n` and no term of the Hamiltonian changes under half a turn of
all spins about `n`, then `omega(-k) = omega(k)` for all wave vectors.  For example, the terms may be scalar products,
Dzyaloshinskii-Moriya vectors along `n`, and anisotropies with the principal axis `n`. -/
theorem C83_coplanar_partial {n : V3 ℝ} (hord : ∀ l, (order l).Perm l) {spin : Atom → ℝ} (hr : MagnonReady order spinVec s spin)
    (hs : s.OnSiteSymmetric) (hc : s.Coplanar (s.magneticAtoms order) spinVec n)
    (h0 : ∀ a ∈ s.magneticAtoms order, spinVec a ≠ some 0)
    (ha : ∀ a ∈ s.magneticAtoms order, ∀ v, spinVec a = some v → OwnAxis v) :
    ∃ o t, init order lat pos spinVec s = (.ok o, t) ∧
      ∀ k chol eig sort, IsCholesky chol → IsEig eig → IsSort sort → ∀ (junk : Mat o.N) (z rg im : Bool),
        (o.omega t.cell (Colpa.solve chol eig sort) junk z rg im (-k)).1.1 =
          (o.omega t.cell (Colpa.solve chol eig sort) junk z rg im k).1.1 := by
  set Q : M3 ℝ := Matrix.of fun i j => 2 * n i * n j - if i = j then 1 else 0 with hQ
  have hQt : Qᵀ = Q := by
    ext i j
    simp only [hQ, transpose_apply, of_apply, eq_comm (a := j)]
    ring
  let f : Description := ⟨id, fun _ => 0, Q, 1, .refl _⟩
  have hback : ∀ a ∈ s.magneticAtoms order, ∀ v, spinVec a = some v → Q *ᵥ v = -v := by
    intro a hm v hv
    rw [hQ, ← rotate_pi, rotate, hc.plane a hm v hv]
    simp
  have hf : f.Holds (s.magneticAtoms order) (s.magneticAtoms order) spin spin s s := by
    refine ⟨half_rotation hc.unit, by simp [f], fun a _ b _ e => e, fun a => by simp [f], fun _ _ => rfl, fun Γ _ _ c => ?_⟩
    obtain ⟨d, nn, e, o, hn, _⟩ := hr.complete
    rw [St.physics_eq hn, St.physics_eq hn]
    have e1 : c.bonds (weight nn spin) s.exchangeItems = (f.old c).bonds (weight nn spin) s.exchangeItems := by
      unfold Config.bonds Config.bond
      congr 1
      refine List.map_congr_left fun p hp => ?_
      congr 1
      refine Finset.sum_congr rfl fun m _ => ?_
      rw [← hc.bonds _ _ (exchangeItems_val hr.wf.keys hp), rotate_pi, rotate_pi, ← hQ]
      simp [Description.old, f, hQt]
    have e2 : c.sites (weight nn spin) s.onSiteItems = (f.old c).sites (weight nn spin) s.onSiteItems := by
      unfold Config.sites Config.site
      congr 1
      refine List.map_congr_left fun p hp => ?_
      congr 1
      refine Finset.sum_congr rfl fun m _ => ?_
      obtain ⟨q, hq, rfl⟩ := List.mem_map.1 hp
      have hv : s.valO q.1 = some (s.cell q.2) := by
        rw [St.valO, get?_of_mem hr.wf.keys.site hq]; rfl
      rw [← hc.sites _ _ hv, rotate_pi, ← hQ]
      simp [Description.old, f, hQt]
    rw [e1, e2]
  have hm : f.Moves (s.magneticAtoms order) lat lat pos pos spinVec (reverse spinVec) := by
    refine moves_shift rfl rfl rfl (fun a _ => by simp [f, Cell.rel_zero]) fun a hm => ?_
    show (spinVec a).map (-·) = (spinVec a).map fun v => Q *ᵥ v
    cases hv : spinVec a with
    | none => rfl
    | some v => simp only [Option.map_some]; rw [hback a hm v hv]
  have hown : ∀ v : V3 ℝ, OwnAxis v → OwnAxis (-v) := by
    rintro v h d ⟨h1, x, hx, e⟩
    have := h (-d) ⟨by simpa [IsUnit3] using h1, x, hx, by rw [smul_neg, ← e, neg_neg]⟩
    simpa using this
  obtain ⟨o, t, h1, h2⟩ := C83_antisymmetry_partial (lat := lat) (pos := pos) hord hr hs hf hm h0
    (Or.inr fun a hm v hv => ⟨ha a hm v hv, by
      show OwnAxis (Q *ᵥ v)
      rw [hback a hm v hv]; exact hown v (ha a hm v hv)⟩)
  refine ⟨o, t, h1, fun k chol eig sort hc he hso junk z rg im => ?_⟩
  have := h2 k chol eig sort hc he hso junk z rg im
  simpa [f] using this

/-! ### A chain that is not reciprocal -/

namespace ChiralExample

open HistoryExample

/-- One bond to the next cell. -/
def bond : PyDict Bond ℕ := [((fe1, fe1, (1, 0, 0)), 0)]

/-- Ferromagnetic exchange and a Dzyaloshinskii-Moriya vector along z. -/
noncomputable def chiral : M3 ℝ := !![-1, 1 / 2, 0; -(1 / 2), -1, 0; 0, 0, -1]

/-- A chain of atoms with spin 1. -/
noncomputable def st : St ℝ :=
  { cell := fun _ => chiral, next := 1, atoms := [fe1], exch := bond, onSite := [], dc := some false, sn := some false,
    ef := some 1, osf := some 1, spin := fun _ => some 1, dist := fun _ => 1 }

theorem atoms : st.magneticAtoms id = [fe1] := by
  show List.insertionSort (fun a b : Atom => a.index ≤ b.index)
    (List.dedup (bond.keys.flatMap (fun b => [b.1, b.2.1]) ++ keys ([] : PyDict Atom ℕ))) = _
  decide

theorem wf : st.WellFormed := by
  refine ⟨St.sound_of_lists ?_ ?_ ?_ ?_ ?_ ?_ ?_ ?_, fun h => by simp [st] at h, fun _ => ?_⟩
  · show bond.keys.Nodup; decide
  · show (keys ([] : PyDict Atom ℕ)).Nodup; decide
  · show (bond.map Prod.snd ++ ([] : PyDict Atom ℕ).map Prod.snd).Nodup; decide
  · show ∀ r ∈ bond.map Prod.snd ++ ([] : PyDict Atom ℕ).map Prod.snd, r < 1; decide
  · show ∀ b ∈ bond.keys, b.1 ∈ [fe1] ∧ b.2.1 ∈ [fe1]; decide
  · show ∀ a ∈ keys ([] : PyDict Atom ℕ), a ∈ [fe1]; decide
  · show ∀ a ∈ [fe1], ∀ b ∈ [fe1], a.index = b.index → a = b; decide
  · show ∀ b ∈ bond.keys, b.mirror ≠ b; decide
  · intro b hb
    have : b = (fe1, fe1, (1, 0, 0)) := by simpa [st, bond] using hb
    subst this
    exact Or.inl (by decide)

theorem ready {v : Atom → Option (V3 ℝ)} (hv : ∀ a, (v a).isSome) : MagnonReady id v st fun _ => 1 :=
  ⟨wf.paired, fun _ _ => ⟨rfl, one_ne_zero⟩, ⟨false, false, 1, 1, rfl, one_ne_zero, one_ne_zero⟩, fun a _ => hv a⟩

theorem symmetric : st.OnSiteSymmetric := fun a m h => by simp [St.valO, st, PyDict.get?] at h

theorem half : HalfTurn ![0, 0, 1] chiral := by
  intro x y
  rw [rotate_pi, rotate_pi]
  simp [bilin, Fin.sum_univ_three, mulVec, dotProduct, chiral]
  ring

theorem value {b : Bond} {m : M3 ℝ} (h : st.valE b = some m) : m = chiral := by
  obtain ⟨r, _, rfl⟩ := Option.map_eq_some_iff.1 h
  rfl

/-- The energy of a spin deviation with the wave vector `(θ, 0, 0)`, for spins along z. -/
noncomputable def gap (θ : ℝ) : ℝ := 2 - 2 * Real.cos θ + Real.sin θ

theorem mode : ∃ o t, init id 1 (fun _ => 0) (fun _ => some ![0, 0, 1]) st = (.ok o, t) ∧ ∀ θ : ℝ,
    SingleMode (o.callH t.cell ![θ, 0, 0]).1 (gap θ) (gap (-θ)) 0 := by
  obtain ⟨o, t, items, e1, e2, e3, e4, e5⟩ := ready_setup (order := id) (fun _ => .refl _) 1 (fun _ => 0)
    (ready (v := fun _ => some ![0, 0, 1]) fun _ => rfl)
  refine ⟨o, t, e1, fun θ => ?_⟩
  have hat := e4.trans atoms
  obtain ⟨o1, t1, a, g1, g2, g3⟩ := C73_fourier (order := id) (fun _ => .refl _) 1 (fun _ => 0)
    (ready (v := fun _ => some ![0, 0, 1]) fun _ => rfl)
  rw [e1] at g1
  simp only [Prod.mk.injEq, Except.ok.injEq] at g1
  obtain ⟨rfl, rfl⟩ := g1
  have ha : ∀ i, a i = fe1 := by
    intro i
    have : a i ∈ List.ofFn a := List.mem_ofFn.2 ⟨i, rfl⟩
    rw [g2, atoms] at this
    exact List.mem_singleton.1 this
  have hJ : ∀ k (i j : Fin o.N), o.J t.cell k i j =
      (1 / 2 : ℂ) • (exp (-(I * (k 0 : ℂ))) • cmat chiral + exp (I * (k 0 : ℂ)) • (cmat chiral)ᵀ) := by
    intro k i j
    have h := g3 k i j
    have hn : st.getNotation = .ok (false, false, 1, 1) := rfl
    have hi : st.exchangeItems = [((fe1, fe1, (1, 0, 0)), chiral)] := rfl
    have h1 : k ⬝ᵥ displacement 1 (fun _ => 0) (fe1, fe1, (1, 0, 0)) = k 0 := by
      simp [displacement, absolute, Cell.rel, dotProduct, Fin.sum_univ_three, Matrix.one_apply]
    have hsite : st.siteEnergy (fun _ => 1) fe1 = 0 := by
      have hv : st.valO fe1 = none := rfl
      ext r c
      simp [St.siteEnergy, hn, hv, complexM]
    have hbond : st.bondFourier 1 (fun _ => 0) (fun _ => 1) k fe1 fe1 =
        (1 / 2 : ℂ) • (exp (-(I * (k 0 : ℂ))) • cmat chiral + exp (I * (k 0 : ℂ)) • (cmat chiral)ᵀ) := by
      simp only [St.bondFourier, hn, hi, List.map_cons, List.map_nil, List.sum_cons, List.sum_nil, h1, and_self, if_true,
        add_zero, weight]
      ext r c
      simp [complexM]
    rw [ha, ha, hbond, hsite, ite_self, add_zero] at h
    rw [← h]
    simp
  have hu : uOf ![0, 0, 1] = ![1, I, 0] := by
    funext c
    unfold uOf
    rw [SiteExample.span_z]
    fin_cases c <;> simp
  have hvv : vOf ![0, 0, 1] = ![0, 0, 1] := by
    funext c
    unfold vOf
    rw [SiteExample.span_z]
    fin_cases c <;> simp
  have key := fun i j => h_single e2 (fun _ => .refl _) hat (v := ![0, 0, 1]) rfl hJ ![θ, 0, 0] i j
  simp only [SiteExample.norm3_z, hu, hvv] at key
  have ee : ∀ x : ℝ, exp (I * (x : ℂ)) = Real.cos x + Real.sin x * I := fun x => by
    rw [mul_comm, exp_mul_I, ofReal_cos, ofReal_sin]
  have ee' : ∀ x : ℝ, exp (-(I * (x : ℂ))) = Real.cos x - Real.sin x * I := fun x => by
    rw [← mul_neg, ← ofReal_neg, ee, Real.cos_neg, Real.sin_neg]; push_cast; ring
  have c1 : ∀ x : ℝ, (![1, I, 0] : V3 ℂ) ⬝ᵥ (((1 / 2 : ℂ) • (exp (-(I * (x : ℂ))) • cmat chiral + exp (I * (x : ℂ)) • (cmat chiral)ᵀ)) *ᵥ
      star ![1, I, 0]) = ((-2 * Real.cos x - Real.sin x : ℝ) : ℂ) := by
    intro x
    rw [ee, ee']
    simp [dotProduct, mulVec, Fin.sum_univ_three, chiral]
    linear_combination (Complex.cos x + Complex.sin x : ℂ) * I_mul_I
  have c2 : ∀ x : ℝ, (![1, I, 0] : V3 ℂ) ⬝ᵥ (((1 / 2 : ℂ) • (exp (-(I * (x : ℂ))) • cmat chiral + exp (I * (x : ℂ)) • (cmat chiral)ᵀ)) *ᵥ
      ![1, I, 0]) = 0 := by
    intro x
    rw [ee, ee']
    simp [dotProduct, mulVec, Fin.sum_univ_three, chiral]
    linear_combination (-Complex.cos x : ℂ) * I_mul_I
  have c3 : (![0, 0, 1] : V3 ℂ) ⬝ᵥ (((1 / 2 : ℂ) • (exp (-(I * ((0 : V3 ℝ) 0 : ℂ))) • cmat chiral + exp (I * ((0 : V3 ℝ) 0 : ℂ)) • (cmat chiral)ᵀ)) *ᵥ
      ![0, 0, 1]) = -1 := by
    simp [dotProduct, mulVec, Fin.sum_univ_three, chiral]
    norm_num
  simp only [c1, c2, c3] at key
  refine ⟨by rw [e2.N, hat]; rfl, fun i j => ?_, fun i j => ?_, fun i j => ?_, fun i j => ?_⟩
  · rw [(key i j).1]; simp [gap]; ring
  · rw [(key i j).2.1]; simp only [star_mul', star_def, conj_ofReal]; simp [gap]; ring
  · rw [(key i j).2.2.1]; simp
  · rw [(key i j).2.2.2]; simp

end ChiralExample

open ChiralExample HistoryExample in
/-- **C83 needs a symmetry.** A chain with ferromagnetic exchange and a Dzyaloshinskii-Moriya vector along its spins has the
energies 3 and 1 at opposite wave vectors. -/
theorem C83_nonreciprocal : ∃ o t, init id 1 (fun _ => 0) (fun _ => some ![0, 0, 1]) st = (.ok o, t) ∧
    ∀ chol eig sort, IsCholesky chol → IsEig eig → IsSort sort → ∀ (junk : Mat o.N) (z im : Bool),
      (o.omega t.cell (Colpa.solve chol eig sort) junk z false im ![Real.pi / 2, 0, 0]).1.1 = [some 3] ∧
      (o.omega t.cell (Colpa.solve chol eig sort) junk z false im (-![Real.pi / 2, 0, 0])).1.1 = [some 1] := by
  obtain ⟨o, t, h1, h2⟩ := mode
  refine ⟨o, t, h1, fun chol eig sort hc he hso junk z im => ?_⟩
  have g1 : gap (Real.pi / 2) = 3 := by simp [gap]; norm_num
  have g2 : gap (-(Real.pi / 2)) = 1 := by simp [gap]; norm_num
  have k1 := h2 (Real.pi / 2)
  have k2 := h2 (-(Real.pi / 2))
  rw [neg_neg] at k2
  rw [g1, g2] at k1 k2
  have hneg : (-![Real.pi / 2, 0, 0] : V3 ℝ) = ![-(Real.pi / 2), 0, 0] := by
    funext i; fin_cases i <;> simp
  have hr : ∀ x : ℝ, 1 ≤ x → round8 (x : ℂ) = x := by
    intro x hx
    unfold round8
    rw [if_neg]
    rw [Complex.norm_real, Real.norm_eq_abs, abs_of_pos (by linarith)]
    norm_num
    linarith
  constructor
  · refine (k1.omega hc he hso (by norm_num) (by norm_num) junk z im).trans ?_
    have : ((3 - 1) / 2 + Real.sqrt (((3 + 1) / 2) ^ 2 - normSq 0) : ℝ) = 3 := by
      rw [normSq_zero, sub_zero, Real.sqrt_sq (by norm_num)]; norm_num
    rw [this, hr _ (by norm_num)]
    norm_num
  · rw [hneg]
    refine (k2.omega hc he hso (by norm_num) (by norm_num) junk z im).trans ?_
    have : ((1 - 3) / 2 + Real.sqrt (((1 + 3) / 2) ^ 2 - normSq 0) : ℝ) = 1 := by
      rw [normSq_zero, sub_zero, Real.sqrt_sq (by norm_num)]; norm_num
    rw [this, hr _ (by norm_num)]
    norm_num

/-! ### Examples -/

open ChiralExample HistoryExample in
/-- C83: the energies of the chain with the spins reversed. -/
example : ∃ o t, init id 1 (fun _ => 0) (reverse fun _ => some ![0, 0, 1]) st = (.ok o, t) ∧
    ∀ chol eig sort, IsCholesky chol → IsEig eig → IsSort sort → ∀ (junk : Mat o.N) (z im : Bool),
      (o.omega t.cell (Colpa.solve chol eig sort) junk z false im (-![Real.pi / 2, 0, 0])).1.1 = [some 3] := by
  obtain ⟨o, t, o', h1, h2, hN, h3⟩ := C83_reversal (order := id) (lat := 1) (pos := fun _ => 0) (fun _ => .refl _)
    (ready (v := fun _ => some ![0, 0, 1]) fun _ => rfl) ChiralExample.symmetric
    (fun a _ e => by simpa using congrFun (Option.some.inj e) 2)
  obtain ⟨o1, t1, g1, g2⟩ := C83_nonreciprocal
  rw [h1] at g1
  simp only [Prod.mk.injEq, Except.ok.injEq] at g1
  obtain ⟨rfl, rfl⟩ := g1
  refine ⟨o', t, h2, fun chol' eig' sort' hc' he' hs' junk' z im => ?_⟩
  obtain ⟨chol, hc⟩ := Colpa.exists_chol (N := o.N)
  obtain ⟨eig, ⟨he, _⟩⟩ := Colpa.exists_eig (N := o.N)
  obtain ⟨sort, hs⟩ := Colpa.exists_sort (N := o.N)
  rw [h3 _ _ _ _ _ _ _ hc he hs hc' he' hs' 0 junk' z false im]
  exact (g2 chol eig sort hc he hs 0 z im).1

open ChiralExample HistoryExample in
/-- C83, coplanar spins: with the spins perpendicular to the Dzyaloshinskii-Moriya vector the chain is reciprocal. -/
example : ∃ o t, init id 1 (fun _ => 0) (fun _ => some ![1, 0, 0]) st = (.ok o, t) ∧
    ∀ k chol eig sort, IsCholesky chol → IsEig eig → IsSort sort → ∀ (junk : Mat o.N) (z rg im : Bool),
      (o.omega t.cell (Colpa.solve chol eig sort) junk z rg im (-k)).1.1 =
        (o.omega t.cell (Colpa.solve chol eig sort) junk z rg im k).1.1 :=
  C83_coplanar_partial (n := ![0, 0, 1]) (fun _ => .refl _) (ready fun _ => rfl) ChiralExample.symmetric
    ⟨by simp [IsUnit3, dotProduct, Fin.sum_univ_three],
      fun a _ v hv => by rw [← Option.some.inj hv]; simp [dotProduct, Fin.sum_univ_three],
      fun b m h => value h ▸ half, fun a m h => by simp [St.valO, st, PyDict.get?] at h⟩
    (fun a _ e => by simpa using congrFun (Option.some.inj e) 0)
    (fun a _ v hv d hd => by
      rw [← Option.some.inj hv] at hd
      rw [directs_unique hd (d' := ![1, 0, 0])
        ⟨by simp [IsUnit3, dotProduct, Fin.sum_univ_three], 1, one_pos, by simp⟩]
      left; left; norm_num)

namespace InversionExample

open HistoryExample NeelExample

/-- The two atoms of `NeelExample` change places by an inversion about the middle of their bond. -/
def swap (a : Atom) : Atom := if a = fe1 then fe2 else if a = fe2 then fe1 else a

def inversion : Description := ⟨swap, fun _ => (1, 0, 0), 1, -1, AddEquiv.neg Cell⟩

theorem holds : inversion.Holds ((NeelExample.st (-1)).magneticAtoms id) ((NeelExample.st (-1)).magneticAtoms id) (fun _ => 2)
    (fun _ => 2) (NeelExample.st (-1)) (NeelExample.st (-1)) := by
  rw [NeelExample.atoms]
  refine ⟨isRotation_one, by simp [inversion], ?_, fun a => ?_, fun _ _ => rfl, fun Γ _ _ c => ?_⟩
  · show ∀ a ∈ [fe1, fe2], ∀ b ∈ [fe1, fe2], swap a = swap b → a = b
    decide
  · have h1 : swap fe1 = fe2 := by decide
    have h2 : swap fe2 = fe1 := by decide
    simp only [inversion, List.mem_cons, List.not_mem_nil, or_false, exists_eq_or_imp, exists_eq_left, h1, h2]
    tauto
  · rw [St.physics_eq (s := NeelExample.st (-1)) (d := false) (n := false) (e := -1) (o := 1) rfl,
      St.physics_eq (s := NeelExample.st (-1)) (d := false) (n := false) (e := -1) (o := 1) rfl]
    have e2 : (NeelExample.st (-1)).exchangeItems = [((fe1, fe2, (1, 0, 0)), 1)] := rfl
    have e4 : (NeelExample.st (-1)).onSiteItems = [] := rfl
    have h1 : swap fe1 = fe2 := by decide
    have h2 : swap fe2 = fe1 := by decide
    rw [e2, e4]
    simp only [Config.bonds, Config.bond, Config.sites, List.map_cons, List.map_nil, List.sum_cons, List.sum_nil, weight]
    have hn : (inversion.old c).τ (1, 0, 0) = -c.τ (1, 0, 0) := by
      show c.τ (-(1, 0, 0)) = _
      rw [map_neg]
    rw [hn]
    simp only [Description.old, inversion, h1, h2, transpose_one, one_mulVec]
    simp only [neg_add_cancel_right]
    congr 5
    refine Finset.sum_congr rfl fun m _ => ?_
    rw [← bilin_transpose', transpose_one]

theorem moves : inversion.Moves ((NeelExample.st (-1)).magneticAtoms id) 1 1 (fun a => if a = fe1 then 0 else ![1 / 4, 1 / 3, 0])
    (fun a => if a = fe1 then 0 else ![1 / 4, 1 / 3, 0]) (fun _ => some ![1, 2, 2]) (fun _ => some ![1, 2, 2]) := by
  have h1 : swap fe1 = fe2 := by decide
  have h2 : swap fe2 = fe1 := by decide
  have h3 : fe2 ≠ fe1 := by decide
  have ab : ∀ v, absolute 1 v = v := fun v => by
    funext i
    fin_cases i <;> simp [absolute, Fin.sum_univ_three, Matrix.one_apply]
  refine ⟨fun R => ?_, ⟨![5 / 4, 1 / 3, 0], ?_⟩, fun a _ => by simp [inversion]⟩
  · funext i
    rw [ab, ab]
    fin_cases i <;> simp [inversion, Cell.rel, neg_mulVec]
  · rw [NeelExample.atoms]
    intro a ha
    simp only [List.mem_cons, List.not_mem_nil, or_false] at ha
    rcases ha with rfl | rfl
    · funext i
      fin_cases i <;> simp [inversion, ab, Cell.rel, neg_mulVec, h1, h3] <;> norm_num
    · funext i
      fin_cases i <;> simp [inversion, ab, Cell.rel, neg_mulVec, h2, h3] <;> norm_num

end InversionExample

open InversionExample in
/-- C83, inversion: two atoms in the cell, ferromagnetic, inversion about the middle of the bond. -/
example : ∃ o t, init id 1 (fun a => if a = HistoryExample.fe1 then 0 else ![1 / 4, 1 / 3, 0]) (fun _ => some ![1, 2, 2])
      (NeelExample.st (-1)) = (.ok o, t) ∧
    ∀ k chol eig sort, IsCholesky chol → IsEig eig → IsSort sort → ∀ (junk : Mat o.N) (z rg im : Bool),
      (o.omega t.cell (Colpa.solve chol eig sort) junk z rg im (-k)).1.1 =
        (o.omega t.cell (Colpa.solve chol eig sort) junk z rg im k).1.1 :=
  C83_inversion (fun _ => .refl _) (NeelExample.ready (by norm_num) fun _ => rfl)
    (fun a m h => by simp [St.valO, NeelExample.st, PyDict.get?] at h) InversionExample.holds InversionExample.moves rfl rfl

end Magnopy
