import Verif.Lemmas.Stiffer
import Verif.Props.Spectrum
import Verif.Props.Firm

/-!
# Property C92: interactions that favour the state raise the magnon energies
-/

set_option autoImplicit false
set_option linter.unusedSectionVars false

namespace Magnopy

open PyDict Matrix Complex ComplexOrder MagnonObj

variable {order order' : List Atom → List Atom} {spinVec : Atom → Option (V3 ℝ)} {s s' : St ℝ}

/-- **C92.** Two well-formed Hamiltonians of the same magnetic atoms and spins, in any notations, and the state with every spin
along the third vector of its local frame (which is its direction up to 1e-8):

* if every small change of the state of a supercell costs at least as much in `s'` as in `s`, then `h'(k) - h(k)` is positive
  semidefinite for every wave vector `k` of the supercell, and, where `h(k)` is positive definite, no energy that `omega` reports
  for `s'` is below the energy at the same place for `s`;
* if this holds for all cubes of `n × n × n` cells, the same is true for all wave vectors. -/
theorem C92_stiffer (hord : ∀ l, (order l).Perm l) (hord' : ∀ l, (order' l).Perm l) (lat : M3 ℝ) (pos : Atom → V3 ℝ)
    {spin : Atom → ℝ} (hr : MagnonReady order spinVec s spin) (hr' : MagnonReady order' spinVec s' spin) (hs : s.OnSiteSymmetric)
    (hs' : s'.OnSiteSymmetric) (hat : s'.magneticAtoms order' = s.magneticAtoms order)
    (hlen : ∀ a ∈ s.magneticAtoms order, ∀ v, spinVec a = some v → spin a = Real.sqrt (v ⬝ᵥ v)) :
    ∃ o t o' t', ∃ frame : Atom → M3 ℝ, init order lat pos spinVec s = (.ok o, t) ∧
      init order' lat pos spinVec s' = (.ok o', t') ∧ o.N = (s.magneticAtoms order).length ∧
      (∀ a ∈ s.magneticAtoms order, RightHanded (frame a) ∧
        ∃ v d, spinVec a = some v ∧ Directs d v ∧ (OwnAxis v → frame a 2 = d) ∧ ∀ i, |frame a 2 i - d i| ≤ 1 / 10 ^ 8) ∧
      ∃ hN : o.N = o'.N,
        (∀ (Γ : Type) [AddCommGroup Γ] [Fintype Γ] (τ : Cell →+ Γ),
          s.Stiffer s' spin (s.magneticAtoms order) (fun a => frame a 2) τ → ∀ k χ, Bloch lat k τ χ →
            ((o'.callH t'.cell k).1.submatrix (Sum.map (Fin.cast hN) (Fin.cast hN)) (Sum.map (Fin.cast hN) (Fin.cast hN)) -
              (o.callH t.cell k).1).PosSemidef ∧
            ((o.callH t.cell k).1.PosDef → NotAbove o t.cell k o' t'.cell k)) ∧
        (lat.det ≠ 0 → (∀ n, s.Stiffer s' spin (s.magneticAtoms order) (fun a => frame a 2) (cube (n + 1))) → ∀ k,
          ((o'.callH t'.cell k).1.submatrix (Sum.map (Fin.cast hN) (Fin.cast hN)) (Sum.map (Fin.cast hN) (Fin.cast hN)) -
              (o.callH t.cell k).1).PosSemidef ∧
            ((o.callH t.cell k).1.PosDef → NotAbove o t.cell k o' t'.cell k)) := by
  obtain ⟨o, t, items, h1, h2, h3, hsym, ha, hpos, hnorm⟩ := magnon_setup hord lat pos hr hs hlen
  obtain ⟨o', t', items', h1', h2', h3', hsym', ha', hpos', hnorm'⟩ := magnon_setup hord' lat pos hr' hs' (hat ▸ hlen)
  obtain ⟨_, _, _, g1, _, _, _, hphys⟩ := ready_setup hord lat pos hr
  rw [h1] at g1
  simp only [Prod.mk.injEq, Except.ok.injEq] at g1
  obtain ⟨_, rfl⟩ := g1
  obtain ⟨_, _, _, g1', _, _, _, hphys'⟩ := ready_setup hord' lat pos hr'
  rw [h1'] at g1'
  simp only [Prod.mk.injEq, Except.ok.injEq] at g1'
  obtain ⟨_, rfl⟩ := g1'
  have hatt : t'.magneticAtoms order' = t.magneticAtoms order := by rw [ha', hat, ha]
  have hN : o.N = o'.N := by rw [h2.N, h2'.N, hatt]
  have hfr := frames_along hord hr h2 hsym ha hpos hnorm
  have hH := C39_private hord hr.inv hr.wf.alloc h1 hsym
  have hH' := C39_private hord' hr'.inv hr'.wf.alloc h1' hsym'
  have first : ∀ (Γ : Type) [AddCommGroup Γ] [Fintype Γ] (τ : Cell →+ Γ),
      s.Stiffer s' spin (s.magneticAtoms order) (fun a => Frame.span ((spinVec a).getD 0) 2) τ → ∀ k χ, Bloch lat k τ χ →
        ((o'.callH t'.cell k).1.submatrix (places hN) (places hN) - (o.callH t.cell k).1).PosSemidef := by
    intro Γ _ _ τ hm k χ hb
    exact posSemidef_of_stiffer hord h2 h2' hsym hsym' hatt hpos hnorm (fun a h => (hfr a (ha ▸ h)).1) (hphys Γ) (hphys' Γ)
      (ha ▸ hm) (hH k) (hH' k) hb hN
  refine ⟨o, t, o', t', fun a => Frame.span ((spinVec a).getD 0), h1, h1', by rw [h2.N, ha],
    frames_exact hord hr h2 hsym ha hpos hnorm, hN, fun Γ _ _ τ hm k χ hb => ?_, fun hlat hm k => ?_⟩
  · have := first Γ τ hm k χ hb
    exact ⟨this, fun hp => C91_compare o o' t.cell t'.cell k k hN hp this⟩
  · have := stiffer_everywhere hord h2 h2' hsym hsym' hatt hnorm hlat hN hH hH' (fun n k χ hb => first _ _ (hm n) k χ hb) k
    exact ⟨this, fun hp => C91_compare o o' t.cell t'.cell k k hN hp this⟩

/-- **C92 for an easy axis.** If `s'` has the energy of `s` and, for every atom, an easy axis of some strength along its spin,
then no magnon energy of `s'` is below that of `s`, for all wave vectors with a positive-definite `h(k)`. -/
theorem C92_easy_axis (hord : ∀ l, (order l).Perm l) (hord' : ∀ l, (order' l).Perm l) (lat : M3 ℝ) (pos : Atom → V3 ℝ)
    {spin : Atom → ℝ} (hr : MagnonReady order spinVec s spin) (hr' : MagnonReady order' spinVec s' spin) (hs : s.OnSiteSymmetric)
    (hs' : s'.OnSiteSymmetric) (hat : s'.magneticAtoms order' = s.magneticAtoms order)
    (hlen : ∀ a ∈ s.magneticAtoms order, ∀ v, spinVec a = some v → spin a = Real.sqrt (v ⬝ᵥ v)) (hlat : lat.det ≠ 0) :
    ∃ o t o' t', ∃ frame : Atom → M3 ℝ, init order lat pos spinVec s = (.ok o, t) ∧
      init order' lat pos spinVec s' = (.ok o', t') ∧ o.N = (s.magneticAtoms order).length ∧
      (∀ a ∈ s.magneticAtoms order, RightHanded (frame a) ∧
        ∃ v d, spinVec a = some v ∧ Directs d v ∧ (OwnAxis v → frame a 2 = d) ∧ ∀ i, |frame a 2 i - d i| ≤ 1 / 10 ^ 8) ∧
      ∀ K : Atom → ℝ, (∀ a ∈ s.magneticAtoms order, 0 ≤ K a) →
        (∀ n (σ : Atom → ZMod (n + 1) × ZMod (n + 1) × ZMod (n + 1) → V3 ℝ) E E',
          (∀ a ∈ s.magneticAtoms order, ∀ m, σ a m ⬝ᵥ σ a m = 1) →
          s.physics (⟨cube (n + 1), σ⟩ : Config ℝ _) spin = some E → s'.physics (⟨cube (n + 1), σ⟩ : Config ℝ _) spin = some E' →
          E' = E - ((s.magneticAtoms order).map fun a => K a * ∑ m, (σ a m ⬝ᵥ frame a 2) ^ 2).sum) →
        ∀ k, (o.callH t.cell k).1.PosDef → NotAbove o t.cell k o' t'.cell k := by
  obtain ⟨o, t, o', t', frame, h1, h1', h2, h3, hN, _, h5⟩ := C92_stiffer hord hord' lat pos hr hr' hs hs' hat hlen
  refine ⟨o, t, o', t', frame, h1, h1', h2, h3, fun K hK hE k => (h5 hlat (fun n => ⟨1, one_pos, fun σ hσ E0 E E0' E' e1 e2 e3 e4 => ?_⟩)
    k).2⟩
  have hf : ∀ a ∈ s.magneticAtoms order, frame a 2 ⬝ᵥ frame a 2 = 1 := fun a ha => by simpa using (h3 a ha).1.ortho 2 2
  have a0 := hE n (fun a _ => frame a 2) E0 E0' (fun a ha _ => hf a ha) e1 e3
  have a1 := hE n σ E E' (fun a ha m => (hσ a ha m).1) e2 e4
  have hsum : ((s.magneticAtoms order).map fun a => K a * ∑ m, (σ a m ⬝ᵥ frame a 2) ^ 2).sum ≤
      ((s.magneticAtoms order).map fun a => K a * ∑ _m : ZMod (n + 1) × ZMod (n + 1) × ZMod (n + 1), (frame a 2 ⬝ᵥ frame a 2) ^ 2).sum := by
    refine List.sum_le_sum fun a ha => mul_le_mul_of_nonneg_left (Finset.sum_le_sum fun m _ => ?_) (hK a ha)
    rw [hf a ha]
    have hu := (hσ a ha m).1
    have hv := hf a ha
    have h0 : 0 ≤ (σ a m - frame a 2) ⬝ᵥ (σ a m - frame a 2) := Finset.sum_nonneg fun i _ => mul_self_nonneg _
    have h0' : 0 ≤ (σ a m + frame a 2) ⬝ᵥ (σ a m + frame a 2) := Finset.sum_nonneg fun i _ => mul_self_nonneg _
    rw [sub_dotProduct, dotProduct_sub, dotProduct_sub, dotProduct_comm (frame a 2) (σ a m), hu, hv] at h0
    rw [add_dotProduct, dotProduct_add, dotProduct_add, dotProduct_comm (frame a 2) (σ a m), hu, hv] at h0'
    nlinarith
  rw [a0, a1]
  linarith

/-! ### Examples -/

open SpectrumExample SiteExample HistoryExample FirmExample in
/-- C92: a stronger easy axis of one atom. -/
example : ∃ o t o' t', init id 1 (fun _ => 0) (fun _ => some ![0, 0, 1]) (st (axes 1)) = (.ok o, t) ∧
    init id 1 (fun _ => 0) (fun _ => some ![0, 0, 1]) (st (axes 3)) = (.ok o', t') ∧
    ∀ k, NotAbove o t.cell k o' t'.cell k := by
  obtain ⟨o, t, o', t', frame, h1, h1', h2, h3, h4⟩ := C92_easy_axis (order := id) (order' := id) (fun _ => .refl _) (fun _ => .refl _)
    1 (fun _ => 0) (ready (axes 1) (v := fun _ => some ![0, 0, 1]) fun _ => rfl) (ready (axes 3) fun _ => rfl)
    (symmetric (axes_sym 1)) (symmetric (axes_sym 3)) (by rw [atoms, atoms])
    (fun a _ v hv => by
      obtain rfl : ![0, 0, 1] = v := Option.some.inj hv
      simp [dotProduct, Fin.sum_univ_three]) (by simp)
  obtain ⟨o1, t1, e1, e2, e3⟩ := object 1
  rw [h1] at e1
  simp only [Prod.mk.injEq, Except.ok.injEq] at e1
  obtain ⟨rfl, rfl⟩ := e1
  have hf : frame fe1 2 = ![0, 0, 1] := by
    obtain ⟨_, v, d, e1, e2, e3, _⟩ := h3 fe1 (by rw [atoms]; simp)
    obtain rfl : ![0, 0, 1] = v := Option.some.inj e1
    rw [e3 own, up e2]
  refine ⟨o, t, o', t', h1, h1', fun k => h4 (fun _ => 2) (fun _ _ => by norm_num) (fun n σ E E' _ q q' => ?_) k
    ((e3 k).posDef_iff.2 (by norm_num))⟩
  rw [physics] at q q'
  rw [← Option.some.inj q, ← Option.some.inj q', atoms]
  simp only [List.map_cons, List.map_nil, List.sum_cons, List.sum_nil, add_zero, hf, Finset.mul_sum, ← Finset.sum_sub_distrib]
  refine Finset.sum_congr rfl fun m _ => ?_
  simp [bilin_eq, axes, dotProduct, Fin.sum_univ_three, Matrix.mulVec, Matrix.vecHead, Matrix.vecTail]
  ring

end Magnopy
