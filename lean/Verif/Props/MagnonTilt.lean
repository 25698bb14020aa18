import Verif.Lemmas.MagnonTilt
import Verif.Lemmas.DescribeSetup
import Verif.Props.Describe
import Verif.Props.MagnonRounding

/-!
# C107: magnon energies depend continuously on the directions of spins
-/

set_option autoImplicit false
set_option linter.unusedSectionVars false

namespace Magnopy
namespace MagnonObj

open Complex Matrix EnergyObj
open scoped ComplexOrder

/-- The same object with other spins. -/
def withSpins (o : MagnonObj) (S : List (V3 ℝ)) (u v : List (V3 ℂ)) : MagnonObj := { o with S := S, u := u, v := v }

/-- The frames of an object. -/
structure Framed (o : MagnonObj) (e : Fin o.N → M3 ℝ) : Prop where
  u : ∀ i : Fin o.N, o.u.getD i 0 = cu (e i)
  v : ∀ i : Fin o.N, o.v.getD i 0 = cvec (e i 2)
  hand : ∀ i, RightHanded (e i)

theorem tilt {o : MagnonObj} {S : List (V3 ℝ)} {u v : List (V3 ℂ)} {e e' : Fin o.N → M3 ℝ} (hC : o.C = none) (he : o.Framed e)
    (he' : (o.withSpins S u v).Framed e') (hS : ∀ i : Fin o.N, norm3 (S.getD i 0) = norm3 (o.S.getD i 0)) {δ : ℝ} (h0 : 0 ≤ δ) (h1 : δ ≤ 1)
    (hd : ∀ i, distSq (e i 2) (e' i 2) ≤ δ ^ 2) :
    ∃ w : Fin o.N ⊕ Fin o.N → ℂ, (∀ i, w i * star (w i) = 1) ∧ ∀ (cell : ℕ → M3 ℝ) (k : V3 ℝ) (r c : Fin o.N ⊕ Fin o.N),
      ‖((o.withSpins S u v).callH cell k).1 r c - w r * (o.callH cell k).1 r c * star (w c)‖ ≤ δ * o.tiltSize cell r c := by
  choose z hz hzu using fun i => cu_close (he.hand i) (he'.hand i) h0 h1 (hd i)
  have nz : ∀ i, ‖z i‖ = 1 := fun i => by
    have := hz i
    rw [Complex.star_def, Complex.mul_conj, Complex.normSq_eq_norm_sq] at this
    have h2 : ‖z i‖ ^ 2 = 1 := by exact_mod_cast this
    have h3 := norm_nonneg (z i)
    nlinarith
  have zu : ∀ i c, ‖z i * cu (e i) c‖ ≤ 1 := fun i c => by rw [norm_mul, nz, one_mul]; exact cu_le (he.hand i) c
  set o' := o.withSpins S u v with ho'
  have hu' : ∀ i : Fin o.N, o'.u.getD i 0 = cu (e' i) := he'.u
  have hv' : ∀ i : Fin o.N, o'.v.getD i 0 = cvec (e' i 2) := he'.v
  have hroot : ∀ i j : Fin o.N, o'.root i j = o.root i j := fun i j => by rw [root, root, ho', withSpins, hS, hS]
  have nroot : ∀ i j : ℕ, ‖o.root i j‖ = Real.sqrt (norm3 (o.S.getD i 0) * norm3 (o.S.getD j 0)) / 2 := fun i j => by
    rw [root, Complex.norm_real, Real.norm_of_nonneg (by positivity)]
  have hA : ∀ cell k (i j : Fin o.N), ‖o'.A cell k i j - z i * o.A cell k i j * star (z j)‖ ≤
      δ * (3 / 2 * Real.sqrt (norm3 (o.S.getD i 0) * norm3 (o.S.getD j 0)) * o.bondTotal cell i j) := fun cell k i j => by
    have h3 := form_tilt (M := o.J cell (-k) i j) (fun a b => o.J_le cell (-k) i j a b) (hzu i) (y := star fun c => z j * cu (e j) c)
      (y' := star (cu (e' j))) (fun a => by rw [Pi.star_apply, Pi.star_apply, ← star_sub, norm_star]; exact hzu j a) (zu i)
      (fun a => by rw [Pi.star_apply, norm_star]; exact cu_le (he'.hand j) a)
    have e1 : (fun c => z i * cu (e i) c) ⬝ᵥ (o.J cell (-k) i j *ᵥ star fun c => z j * cu (e j) c) =
        z i * star (z j) * (cu (e i) ⬝ᵥ (o.J cell (-k) i j *ᵥ star (cu (e j)))) := by
      simp only [dotProduct, mulVec, Fin.sum_univ_three, Pi.star_apply, star_mul']; ring
    have e2 : o'.A cell k i j - z i * o.A cell k i j * star (z j) = o.root i j * (cu (e' i) ⬝ᵥ (o.J cell (-k) i j *ᵥ star (cu (e' j))) -
        (fun c => z i * cu (e i) c) ⬝ᵥ (o.J cell (-k) i j *ᵥ star fun c => z j * cu (e j) c)) := by
      rw [A, A, hroot, hu', hu', he.u, he.u, e1, show o'.J cell (-k) i j = o.J cell (-k) i j from rfl]; ring
    rw [e2, norm_mul, nroot]
    refine (mul_le_mul_of_nonneg_left h3 (by positivity)).trans (le_of_eq ?_)
    rw [bondTotal]; ring
  have hB : ∀ cell k (i j : Fin o.N), ‖o'.B cell k i j - z i * o.B cell k i j * z j‖ ≤
      δ * (3 / 2 * Real.sqrt (norm3 (o.S.getD i 0) * norm3 (o.S.getD j 0)) * o.bondTotal cell i j) := fun cell k i j => by
    have h3 := form_tilt (M := o.J cell (-k) i j) (fun a b => o.J_le cell (-k) i j a b) (hzu i) (hzu j) (zu i) (cu_le (he'.hand j))
    have e1 : (fun c => z i * cu (e i) c) ⬝ᵥ (o.J cell (-k) i j *ᵥ fun c => z j * cu (e j) c) =
        z i * z j * (cu (e i) ⬝ᵥ (o.J cell (-k) i j *ᵥ cu (e j))) := by
      simp only [dotProduct, mulVec, Fin.sum_univ_three]; ring
    have e2 : o'.B cell k i j - z i * o.B cell k i j * z j = o.root i j * (cu (e' i) ⬝ᵥ (o.J cell (-k) i j *ᵥ cu (e' j)) -
        (fun c => z i * cu (e i) c) ⬝ᵥ (o.J cell (-k) i j *ᵥ fun c => z j * cu (e j) c)) := by
      rw [B, B, hroot, hu', hu', he.u, he.u, e1, show o'.J cell (-k) i j = o.J cell (-k) i j from rfl]; ring
    rw [e2, norm_mul, nroot]
    refine (mul_le_mul_of_nonneg_left h3 (by positivity)).trans (le_of_eq ?_)
    rw [bondTotal]; ring
  have hCC : ∀ cell (i j : Fin o.N), ‖o'.freshC cell i j - o.freshC cell i j‖ ≤
      δ * (if i = j then 2 * ∑ l ∈ Finset.range o.N, norm3 (o.S.getD l 0) * o.bondTotal cell i l else 0) := fun cell i j => by
    rw [freshC, freshC]
    by_cases hij : i = j
    · subst hij
      rw [if_pos rfl, if_pos rfl, if_pos rfl, show o'.N = o.N from rfl, ← Finset.sum_sub_distrib, ← mul_assoc, Finset.mul_sum]
      refine norm_sum_le_of_le _ fun l hl => ?_
      obtain ⟨l, rfl⟩ : ∃ l' : Fin o.N, (l' : ℕ) = l := ⟨⟨l, Finset.mem_range.1 hl⟩, rfl⟩
      rw [show norm3 (o'.S.getD l 0) = norm3 (o.S.getD l 0) from hS l, hv', hv', he.v, he.v, show o'.J cell 0 i l = o.J cell 0 i l from rfl,
        ← mul_sub, norm_mul, Complex.norm_real, Real.norm_of_nonneg (by unfold norm3; positivity)]
      have h3 := form_tilt (M := o.J cell 0 i l) (fun a b => o.J_le cell 0 i l a b) (third_close h0 (hd i)) (third_close h0 (hd l))
        (third_le (he.hand i)) (third_le (he'.hand l))
      refine (mul_le_mul_of_nonneg_left h3 (by unfold norm3; positivity)).trans (le_of_eq ?_)
      rw [bondTotal]; ring
    · have hij' : (i : ℕ) ≠ j := fun h => hij (Fin.ext h)
      rw [if_neg hij', if_neg hij', if_neg hij]; simp
  have hz' : ∀ i, z i * (starRingEnd ℂ) (z i) = 1 := hz
  refine ⟨Sum.elim z fun i => star (z i), fun i => ?_, fun cell k r c => ?_⟩
  · rcases i with i | i
    · exact hz i
    · show star (z i) * star (star (z i)) = 1
      rw [star_star, mul_comm]; exact hz i
  have g := fun i j => callH_entries o hC cell k i j
  have g' : ∀ i j : Fin o.N, _ := fun i j => callH_entries o' hC cell k i j
  have two : ‖(2 : ℂ)‖ = 2 := by simp
  rcases r with i | i <;> rcases c with j | j
  · refine (le_of_eq (congrArg₂ (fun x y : ℂ => ‖x - z i * y * star (z j)‖) (g' i j).1 (g i j).1)).trans ?_
    have hc : z i * o.freshC cell i j * star (z j) = o.freshC cell i j := by
      by_cases hij : i = j
      · subst hij; linear_combination o.freshC cell i i * hz i
      · have hij' : (i : ℕ) ≠ j := fun h => hij (Fin.ext h)
        rw [freshC, if_neg hij']; simp
    have e1 : 2 * o'.A cell k i j - 2 * o'.freshC cell i j - z i * (2 * o.A cell k i j - 2 * o.freshC cell i j) * star (z j) =
        2 * (o'.A cell k i j - z i * o.A cell k i j * star (z j)) - 2 * (o'.freshC cell i j - o.freshC cell i j) := by
      linear_combination 2 * hc
    rw [e1]
    refine (norm_sub_le _ _).trans ?_
    rw [norm_mul, norm_mul, two]
    have a1 := hA cell k i j
    have a2 := hCC cell i j
    simp only [tiltSize]
    split_ifs at a2 ⊢ with hij
    · nlinarith
    · nlinarith
  · refine (le_of_eq (congrArg₂ (fun x y : ℂ => ‖x - z i * y * star (star (z j))‖) (g' i j).2.1 (g i j).2.1)).trans ?_
    rw [star_star, show 2 * o'.B cell k i j - z i * (2 * o.B cell k i j) * z j = 2 * (o'.B cell k i j - z i * o.B cell k i j * z j) by ring,
      norm_mul, two]
    have a1 := hB cell k i j
    simp only [tiltSize]
    nlinarith
  · refine (le_of_eq (congrArg₂ (fun x y : ℂ => ‖x - star (z i) * y * star (z j)‖) (g' i j).2.2.1 (g i j).2.2.1)).trans ?_
    rw [show 2 * star (o'.B cell k j i) - star (z i) * (2 * star (o.B cell k j i)) * star (z j) =
      2 * star (o'.B cell k j i - z j * o.B cell k j i * z i) by simp only [star_sub, star_mul']; ring, norm_mul, two, norm_star]
    have a1 := hB cell k j i
    simp only [tiltSize]
    nlinarith
  · refine (le_of_eq (congrArg₂ (fun x y : ℂ => ‖x - star (z i) * y * star (star (z j))‖) (g' i j).2.2.2 (g i j).2.2.2)).trans ?_
    have hc : star (z i) * o.freshC cell i j * z j = o.freshC cell i j := by
      by_cases hij : i = j
      · subst hij; linear_combination o.freshC cell i i * hz i
      · have hij' : (i : ℕ) ≠ j := fun h => hij (Fin.ext h)
        rw [freshC, if_neg hij']; simp
    have e1 : 2 * star (o'.A cell (-k) i j) - 2 * o'.freshC cell i j - star (z i) * (2 * star (o.A cell (-k) i j) - 2 * o.freshC cell i j) * z j =
        2 * star (o'.A cell (-k) i j - z i * o.A cell (-k) i j * star (z j)) - 2 * (o'.freshC cell i j - o.freshC cell i j) := by
      simp only [star_sub, star_mul', star_star]
      linear_combination 2 * hc
    simp only [star_star]
    rw [e1]
    refine (norm_sub_le _ _).trans ?_
    rw [norm_mul, norm_mul, two, norm_star]
    have a1 := hA cell (-k) i j
    have a2 := hCC cell i j
    simp only [tiltSize]
    split_ifs at a2 ⊢ with hij
    · nlinarith
    · nlinarith

/-! ### Frames of nearby spins -/

theorem dot_tri {x y : V3 ℝ} {a b : ℝ} (ha : 0 ≤ a) (hb : 0 ≤ b) (hx : x ⬝ᵥ x ≤ a ^ 2) (hy : y ⬝ᵥ y ≤ b ^ 2) : (x + y) ⬝ᵥ (x + y) ≤ (a + b) ^ 2 := by
  have pos : ∀ x : V3 ℝ, 0 ≤ x ⬝ᵥ x := fun x => by
    simp only [dotProduct]
    exact Finset.sum_nonneg fun i _ => mul_self_nonneg _
  have hc : (x ⬝ᵥ y) ^ 2 ≤ (x ⬝ᵥ x) * (y ⬝ᵥ y) := by
    simp only [dotProduct, Fin.sum_univ_three]
    nlinarith [sq_nonneg (x 0 * y 1 - x 1 * y 0), sq_nonneg (x 0 * y 2 - x 2 * y 0), sq_nonneg (x 1 * y 2 - x 2 * y 1)]
  have h1 : (x ⬝ᵥ y) ^ 2 ≤ (a * b) ^ 2 := by
    rw [mul_pow]
    exact hc.trans (mul_le_mul hx hy (pos y) (by positivity))
  have h2 : x ⬝ᵥ y ≤ a * b := (abs_le.1 (abs_le_of_sq_le_sq h1 (by positivity))).2
  rw [add_dotProduct, dotProduct_add, dotProduct_add, dotProduct_comm y x]
  nlinarith

theorem distSq_eq (x y : V3 ℝ) : distSq x y = (x - y) ⬝ᵥ (x - y) := by
  simp only [distSq, dotProduct, Pi.sub_apply, sq]

theorem distSq_comm (x y : V3 ℝ) : distSq x y = distSq y x := by
  simp only [distSq]; refine Finset.sum_congr rfl fun c _ => ?_; ring

theorem distSq_tri {x y z : V3 ℝ} {a b : ℝ} (ha : 0 ≤ a) (hb : 0 ≤ b) (hx : distSq x y ≤ a ^ 2) (hy : distSq y z ≤ b ^ 2) :
    distSq x z ≤ (a + b) ^ 2 := by
  rw [distSq_eq] at *
  rw [show x - z = (x - y) + (y - z) by abel]
  exact dot_tri ha hb hx hy

theorem span_near {v : V3 ℝ} (hv : v ≠ 0) : distSq (Frame.span v 2) (EnergyObj.normalize v) ≤ (2 / 10 ^ 8) ^ 2 := by
  obtain ⟨-, d, hd, -, h⟩ := C42_frame v hv
  obtain rfl := directs_unique hd (Frame.normalize_directs hv)
  have : ∀ i, (Frame.span v 2 i - EnergyObj.normalize v i) ^ 2 ≤ (1 / 10 ^ 8) ^ 2 := fun i => sq_le_sq' (by linarith [(abs_le.1 (h i)).1]) (abs_le.1 (h i)).2
  rw [distSq, Fin.sum_univ_three]
  have h0 := this 0
  have h1 := this 1
  have h2 := this 2
  norm_num at h0 h1 h2 ⊢
  linarith

theorem distSq_turn {Q : M3 ℝ} (h : Qᵀ * Q = 1) (x y : V3 ℝ) : distSq (Q *ᵥ x) (Q *ᵥ y) = distSq x y := by
  rw [distSq_eq, distSq_eq, ← mulVec_sub, dot_turn h]

theorem normalize_near {v v' : V3 ℝ} (hv : v ≠ 0) (hn : v' ⬝ᵥ v' = v ⬝ᵥ v) {δ : ℝ} (hd : distSq v' v ≤ δ ^ 2 * (v ⬝ᵥ v)) :
    norm3 v' = norm3 v ∧ distSq (EnergyObj.normalize v') (EnergyObj.normalize v) ≤ δ ^ 2 := by
  have e : norm3 v' = norm3 v := Frame.norm3_eq (Real.sqrt_nonneg _) (by rw [hn, norm3_sq])
  refine ⟨e, ?_⟩
  have hp := norm3_pos hv
  rw [distSq_eq, normalize_eq, normalize_eq, e, ← smul_sub, smul_dotProduct, dotProduct_smul, smul_eq_mul, smul_eq_mul]
  rw [distSq_eq, ← norm3_sq v] at hd
  calc (norm3 v)⁻¹ * ((norm3 v)⁻¹ * ((v' - v) ⬝ᵥ (v' - v))) ≤ (norm3 v)⁻¹ * ((norm3 v)⁻¹ * (δ ^ 2 * norm3 v ^ 2)) := by gcongr
    _ = δ ^ 2 := by field_simp

theorem framed {order : List Atom → List Atom} {lat : M3 ℝ} {pos : Atom → V3 ℝ} {spinVec : Atom → Option (V3 ℝ)} {s : St ℝ} {o : MagnonObj}
    {t : St ℝ} {items : List (Bond × ℕ)} (h : ObjSpec order lat pos spinVec s o t items) (hord : ∀ l, (order l).Perm l)
    (h0 : ∀ i : Fin o.N, o.S.getD i 0 ≠ 0) : o.Framed fun i => Frame.span (o.S.getD i 0) := by
  refine ⟨fun i => ?_, fun i => ?_, fun i => (C42_frame _ (h0 i)).1⟩
  · obtain ⟨v, -, e1, e2, -⟩ := axes_at h hord i
    rw [e1, e2]; rfl
  · obtain ⟨v, -, e1, -, e3⟩ := axes_at h hord i
    rw [e1, e3]; rfl

variable {order order' : List Atom → List Atom} {lat lat' : M3 ℝ} {pos pos' : Atom → V3 ℝ}
  {spinVec spinVec' turned : Atom → Option (V3 ℝ)} {s s' : St ℝ} {o o' : MagnonObj} {t t' : St ℝ}

theorem cu_turn (Q e : M3 ℝ) : cu (fun i => Q *ᵥ e i) = cmat Q *ᵥ cu e := by
  funext c
  simp only [cu, mulVec, dotProduct, Fin.sum_univ_three, cmat, Matrix.map_apply]
  push_cast
  ring

/-- **C107 (matrix).** The magnon matrix depends continuously on the directions of the spins, for all descriptions of a magnet, directions near
`±z` included.  Take two descriptions of one magnet, and give the second one spins of the same lengths that differ from the exactly turned ones
(`turned`) by at most the fraction `δ` of their length.  Then, up to the order of the atoms and one phase for each row, every entry of the two
matrices agrees up to `(δ + 4e-8)` times the size `tiltSize` of this entry.  The 4e-8 are the shortcut of `span_orthonormal_set` near `±z`. -/
theorem C107_matrix {f : Description} (hord : ∀ l, (order l).Perm l) (hord' : ∀ l, (order' l).Perm l)
    {spin spin' : Atom → ℝ} (hr : MagnonReady order spinVec s spin) (hr' : MagnonReady order' spinVec' s' spin')
    (hs : s.OnSiteSymmetric) (hs' : s'.OnSiteSymmetric)
    (hf : f.Holds (s.magneticAtoms order) (s'.magneticAtoms order') spin spin' s s')
    (hm : f.Moves (s.magneticAtoms order) lat lat' pos pos' spinVec turned) {δ : ℝ} (h0 : 0 ≤ δ) (hδ : δ + 4 / 10 ^ 8 ≤ 1)
    (hn : NearSpins δ (s'.magneticAtoms order') turned spinVec')
    (h1 : init order lat pos spinVec s = (.ok o, t)) (h1' : init order' lat' pos' spinVec' s' = (.ok o', t')) :
    ∃ (e : Fin o.N ≃ Fin o'.N) (w : Fin o'.N ⊕ Fin o'.N → ℂ), (∀ i, w i * star (w i) = 1) ∧ (∀ k, (o.callH t.cell k).1.IsHermitian) ∧
      (∀ k, (o'.callH t'.cell k).1.IsHermitian) ∧
      ∀ k r c, ‖(o.callH t.cell k).1 r c - w (Sum.map e e r) *
          (o'.callH t'.cell (f.space *ᵥ k)).1 (Sum.map e e r) (Sum.map e e c) * star (w (Sum.map e e c))‖ ≤
        (δ + 4 / 10 ^ 8) * o'.tiltSize t'.cell (Sum.map e e r) (Sum.map e e c) := by
  obtain ⟨o₁, t₁, items, g1, h2, h3, h4, h5⟩ := ready_setup hord lat pos hr
  rw [h1] at g1
  simp only [Prod.mk.injEq, Except.ok.injEq] at g1
  obtain ⟨rfl, rfl⟩ := g1
  obtain ⟨o₁, t₁, items', g1, h2', h3', h4', h5'⟩ := ready_setup hord' lat' pos' hr'
  rw [h1'] at g1
  simp only [Prod.mk.injEq, Except.ok.injEq] at g1
  obtain ⟨rfl, rfl⟩ := g1
  rw [← h4] at hf hm
  rw [← h4'] at hf hn
  have hsym := h3.symmetric hr.complete hs (St.getNotation_ok_iff.1 h2.flags).1
  have hsym' := h3'.symmetric hr'.complete hs' (St.getNotation_ok_iff.1 h2'.flags).1
  have hc : ∀ b : Bond, b.1 ∈ t.magneticAtoms order → b.2.1 ∈ t.magneticAtoms order →
      couple (likeItems t') (f.bond b) = f.turn * couple (likeItems t) b * f.turnᵀ := fun b hb1 hb2 =>
    hf.couple h2.flags h2'.flags h5 h5' h2.inv.nodup h2'.inv.nodup hsym hsym' (fun p hp => h2.like_atoms hp)
      (fun a ha => (h3.spins a (magneticAtoms_mem hord h3.wf.toSound ha)).2) hb1 hb2
  obtain ⟨e, he⟩ := hf.number h2 hord h2' hord'
  -- the spins of an atom in both descriptions
  have hat : ∀ i : Fin o.N, o.S.getD i 0 ≠ 0 ∧ o'.S.getD (e i) 0 ≠ 0 ∧ norm3 (o'.S.getD (e i) 0) = norm3 (o.S.getD i 0) ∧
      distSq (Frame.span (o'.S.getD (e i) 0) 2) (f.turn *ᵥ Frame.span (o.S.getD i 0) 2) ≤ (δ + 4 / 10 ^ 8) ^ 2 := by
    intro i
    obtain ⟨v, hv, e1, -, -⟩ := axes_at h2 hord i
    obtain ⟨v', hv', e1', -, -⟩ := axes_at h2' hord' (e i)
    obtain ⟨x, x', q1, q2, q3, q4, q5⟩ := hn _ (atomAt_mem h2' hord' (e i))
    rw [hv', Option.some.injEq] at q2
    rw [he, hm.vectors _ (atomAt_mem h2 hord i), hv, Option.map_some, Option.some.injEq] at q1
    subst q2
    subst q1
    obtain ⟨p1, p2⟩ := normalize_near q3 q4 q5
    have hvn : v ≠ 0 := fun h => q3 (by rw [h, mulVec_zero])
    have hvn' : v' ≠ 0 := fun h => by
      rw [h, norm3_turn hf.rotation.ortho] at p1
      exact (norm3_pos hvn).ne' (by rw [← p1]; simp [norm3])
    rw [e1, e1']
    refine ⟨hvn, hvn', by rw [p1, norm3_turn hf.rotation.ortho], ?_⟩
    have d1 := span_near hvn'
    have d2 : distSq (EnergyObj.normalize (f.turn *ᵥ v)) (f.turn *ᵥ Frame.span v 2) ≤ (2 / 10 ^ 8) ^ 2 := by
      rw [normalize_turn hf.rotation.ortho, distSq_turn hf.rotation.ortho, distSq_comm]
      exact span_near hvn
    have := distSq_tri (by positivity) (by norm_num) (distSq_tri (by norm_num) h0 d1 p2) d2
    rwa [show 2 / 10 ^ 8 + δ + 2 / 10 ^ 8 = δ + 4 / 10 ^ 8 by ring] at this
  have hfr := framed h2 hord fun i => (hat i).1
  have hfr' := framed h2' hord' fun i => by
    have := (hat (e.symm i)).2.1
    rwa [e.apply_symm_apply] at this
  -- the second object with the turned axes of the first
  let fr : Fin o'.N → M3 ℝ := fun j c => f.turn *ᵥ Frame.span (o.S.getD (e.symm j) 0) c
  let p := o'.withSpins o'.S (List.ofFn fun j => cu (fr j)) (List.ofFn fun j => cvec (fr j 2))
  have hof : ∀ {n : ℕ} (g : Fin n → V3 ℂ) (j : Fin n), (List.ofFn g).getD j 0 = g j := fun g j => by simp [List.getD]
  have hp : p.Framed fr := ⟨fun j => hof (fun j => cu (fr j)) j, fun j => hof (fun j => cvec (fr j 2)) j,
    fun j => (hfr.hand _).turn hf.rotation⟩
  have hpe : ∀ i : Fin o.N, fr (e i) = fun c => f.turn *ᵥ Frame.span (o.S.getD i 0) c := fun i => by
    simp only [fr, e.symm_apply_apply]
    rfl
  have hax : SameAxes (o := o) (o' := p) f (e : Fin o.N ≃ Fin p.N) (fun _ => 1) := by
    refine ⟨fun i => by simp, fun i => (hat i).2.2.1, fun i => ?_, fun i => ?_⟩
    · refine (hp.u (e i)).trans ?_
      rw [one_smul, hfr.u i, ← cu_turn]
      exact congrArg cu (hpe i)
    · refine (hp.v (e i)).trans ?_
      rw [hfr.v i]
      exact (congrArg (fun x : M3 ℝ => cvec (x 2)) (hpe i)).trans (cvec_mulVec _ _).symm
  obtain ⟨w, hw, hh⟩ := tilt (S := o'.S) (u := List.ofFn fun j => cu (fr j)) (v := List.ofFn fun j => cvec (fr j 2)) h2'.C hfr' hp (fun _ => rfl)
    (by positivity) hδ fun j => by
      have := (hat (e.symm j)).2.2.2
      rw [e.apply_symm_apply] at this
      exact this
  refine ⟨e, w, hw, C39_private hord hr.inv hr.wf.alloc h1 hsym, C39_private hord' hr'.inv hr'.wf.alloc h1' hsym', fun k r c => ?_⟩
  have hJ := J_describe hf hm h2 hord h2' hord' hc he
  have h6 := h_describe (o := o) (o' := p) (cell := t.cell) (cell' := t'.cell) hf.rotation.ortho hax h2.C h2'.C hJ k r c
  have h7 := hh t'.cell (f.space *ᵥ k) (Sum.map e e r) (Sum.map e e c)
  have one : ∀ x : Fin o.N ⊕ Fin o.N, Sum.elim (fun _ => (1 : ℂ)) (star fun _ => 1) x = 1 := by
    rintro (i | i) <;> simp
  rw [one, one, star_one, one_mul, mul_one] at h6
  rw [← h6]
  exact h7

/-- Hermitian matrices with nearby entries have nearby energies. -/
theorem energies_near {N : ℕ} {D M : Mat N} (hH : D.IsHermitian) (hM : M.IsHermitian) {a η : ℝ} (ha : 0 < a) (hpos : (D - (a : ℂ) • 1).PosSemidef)
    (h0 : 0 ≤ η) (hη : ∀ i j, ‖M i j - D i j‖ ≤ η) (hsmall : 2 * N * η < a) :
    ∃ e e' : Fin N ⊕ Fin N → ℝ, (∀ i, 0 < e i ∧ 0 < e' i ∧ |e' i - e i| ≤ 2 * N * η / a * e i) ∧
      ∀ chol eig sort, IsCholesky chol → IsEig eig → IsSort sort → ∀ (junk : Mat N) (z rg im : Bool),
        (omegaOf (Colpa.solve chol eig sort) junk z rg im D).1 = energyArray (fun i => (e i : ℂ)) rg ∧
        (omegaOf (Colpa.solve chol eig sort) junk z rg im M).1 = energyArray (fun i => (e' i : ℂ)) rg := by
  have hr : 2 * N * η / a < 1 := by rw [div_lt_one ha]; exact hsmall
  have hr0 : 0 ≤ 2 * N * η / a := by positivity
  have hD : D.PosDef := by
    have h1 : ((a : ℂ) • (1 : Mat N)).PosDef := PosDef.one.smul (Complex.zero_lt_real.2 ha)
    simpa using h1.add_posSemidef hpos
  obtain ⟨c1, c2⟩ := close_of_entries hH hM ha hpos hη h0
  have hM' : M.PosDef := by
    have h1 := (hD.smul (Complex.zero_lt_real.2 (sub_pos.2 hr))).add_posSemidef c1
    simpa using h1
  obtain ⟨Y, e, h⟩ := exists_modes hD
  obtain ⟨Y', e', h'⟩ := exists_modes hM'
  exact ⟨e, e', fun i => ⟨h.pos i, h'.pos i, h.toDiag.close h'.toDiag hr0 hr c1 c2 i⟩, fun chol eig sort hch he hs junk z rg im =>
    ⟨omegaOf_modes hD h hch he hs junk z rg im, omegaOf_modes hM' h' hch he hs junk z rg im⟩⟩

/-- **C107 (energies).** Under the conditions of C107 (matrix), if the matrix of the first description is at least `a > 0` and the bounds of the
changes of the entries are at most `η` with `2Nη < a`, then `omega` reports the energies `e` for the first description and `e'` for the second
one (both set to zero up to 1e-8), and each `e'` differs from `e` by at most the fraction `2Nη / a`, whatever correct linear algebra is used. -/
theorem C107_energies {f : Description} (hord : ∀ l, (order l).Perm l) (hord' : ∀ l, (order' l).Perm l)
    {spin spin' : Atom → ℝ} (hr : MagnonReady order spinVec s spin) (hr' : MagnonReady order' spinVec' s' spin')
    (hs : s.OnSiteSymmetric) (hs' : s'.OnSiteSymmetric)
    (hf : f.Holds (s.magneticAtoms order) (s'.magneticAtoms order') spin spin' s s')
    (hm : f.Moves (s.magneticAtoms order) lat lat' pos pos' spinVec turned) {δ : ℝ} (h0 : 0 ≤ δ) (hδ : δ + 4 / 10 ^ 8 ≤ 1)
    (hn : NearSpins δ (s'.magneticAtoms order') turned spinVec')
    (h1 : init order lat pos spinVec s = (.ok o, t)) (h1' : init order' lat' pos' spinVec' s' = (.ok o', t')) (k : V3 ℝ) {a η : ℝ} (ha : 0 < a)
    (hpos : ((o.callH t.cell k).1 - (a : ℂ) • 1).PosSemidef) (hη0 : 0 ≤ η) (hη : ∀ r c, (δ + 4 / 10 ^ 8) * o'.tiltSize t'.cell r c ≤ η)
    (hsmall : 2 * o.N * η < a) :
    ∃ e e' : Fin o.N ⊕ Fin o.N → ℝ, (∀ i, 0 < e i ∧ 0 < e' i ∧ |e' i - e i| ≤ 2 * o.N * η / a * e i) ∧
      ∀ chol eig sort chol' eig' sort', IsCholesky chol → IsEig eig → IsSort sort → IsCholesky chol' → IsEig eig' → IsSort sort' →
        ∀ (junk : Mat o.N) (junk' : Mat o'.N) (z rg im : Bool),
          (o.omega t.cell (Colpa.solve chol eig sort) junk z rg im k).1.1 = energyArray (fun i => (e i : ℂ)) rg ∧
          (o'.omega t'.cell (Colpa.solve chol' eig' sort') junk' z rg im (f.space *ᵥ k)).1.1 = energyArray (fun i => (e' i : ℂ)) rg := by
  obtain ⟨n, w, hw, hH, hH', hd⟩ := C107_matrix hord hord' hr hr' hs hs' hf hm h0 hδ hn h1 h1'
  let M : Mat o.N := Matrix.of fun r c => w (Sum.map n n r) * (o'.callH t'.cell (f.space *ᵥ k)).1 (Sum.map n n r) (Sum.map n n c) * star (w (Sum.map n n c))
  have hM : M.IsHermitian := by
    ext r c
    have := congrFun (congrFun (hH' (f.space *ᵥ k)) (Sum.map n n r)) (Sum.map n n c)
    rw [conjTranspose_apply] at this
    simp only [M, conjTranspose_apply, of_apply, star_mul', star_star, this]
    ring
  obtain ⟨e, e', h2, h3⟩ := energies_near (hH k) hM ha hpos hη0 (fun r c => by
    rw [norm_sub_rev]
    exact (hd k r c).trans (hη _ _)) hsmall
  refine ⟨e, e', h2, fun chol eig sort chol' eig' sort' hc he hso hc' he' hso' junk junk' z rg im => ⟨(h3 chol eig sort hc he hso junk z rg im).1, ?_⟩⟩
  rw [← (h3 chol eig sort hc he hso junk z rg im).2]
  refine omegaOf_relabel hc he hso hc' he' hso' n (fun r => star (w (Sum.map n n r))) (fun i => ?_) hM (fun r c => ?_) junk junk' z rg im
  · rw [star_star, mul_comm]; exact hw _
  · simp only [M, of_apply, star_star]
    have e1 := hw (Sum.map n n r)
    have e2 := hw (Sum.map n n c)
    show (o'.callH t'.cell (f.space *ᵥ k)).1 (Sum.map n n r) (Sum.map n n c) = _
    generalize (o'.callH t'.cell (f.space *ᵥ k)).1 (Sum.map n n r) (Sum.map n n c) = x
    linear_combination -x * e1 - x * (w (Sum.map n n r) * star (w (Sum.map n n r))) * e2

/-- **C107 (spins).** The same for one Hamiltonian and two sets of spins: the matrices agree up to the order of the atoms, the phases and
`(δ + 4e-8)` times the sizes. -/
theorem C107_spins (hord : ∀ l, (order l).Perm l) {spin : Atom → ℝ} (hr : MagnonReady order spinVec s spin) (hr' : MagnonReady order spinVec' s spin)
    (hs : s.OnSiteSymmetric) {δ : ℝ} (h0 : 0 ≤ δ) (hδ : δ + 4 / 10 ^ 8 ≤ 1) (hn : NearSpins δ (s.magneticAtoms order) spinVec spinVec')
    (h1 : init order lat pos spinVec s = (.ok o, t)) (h1' : init order lat pos spinVec' s = (.ok o', t')) :
    ∃ (e : Fin o.N ≃ Fin o'.N) (w : Fin o'.N ⊕ Fin o'.N → ℂ), (∀ i, w i * star (w i) = 1) ∧
      ∀ k r c, ‖(o.callH t.cell k).1 r c - w (Sum.map e e r) *
          (o'.callH t'.cell k).1 (Sum.map e e r) (Sum.map e e c) * star (w (Sum.map e e c))‖ ≤
        (δ + 4 / 10 ^ 8) * o'.tiltSize t'.cell (Sum.map e e r) (Sum.map e e c) := by
  have hf : Description.same.Holds (s.magneticAtoms order) (s.magneticAtoms order) spin spin s s :=
    ⟨isRotation_one, by simp [Description.same], fun a _ b _ e => e, fun a => by simp [Description.same], fun a _ => rfl, fun Γ _ _ c => by
      congr 1
      simp [Description.old, Description.same]⟩
  have hm : Description.same.Moves (s.magneticAtoms order) lat lat pos pos spinVec spinVec :=
    moves_shift rfl rfl rfl (fun a _ => by simp [Description.same, Cell.rel_zero]) fun a _ => by simp [Description.same]
  obtain ⟨e, w, hw, -, -, h⟩ := C107_matrix hord hord hr hr' hs hs hf hm h0 hδ hn h1 h1'
  refine ⟨e, w, hw, fun k r c => ?_⟩
  have := h k r c
  rwa [show Description.same.space = 1 from rfl, one_mulVec] at this

/-! ### Examples -/

namespace TiltExample

open HistoryExample Magnopy.SiteExample

/-- The only bond of the object is the on-site term. -/
theorem total {m : M3 ℝ} {v : V3 ℝ} {lat : M3 ℝ} {pos : Atom → V3 ℝ} {o : MagnonObj} {t : St ℝ}
    (h : init id lat pos (fun _ => some v) (st m) = (.ok o, t)) (h1 : norm3 v = 1) (r c : Fin o.N ⊕ Fin o.N) :
    o.tiltSize t.cell r c ≤ 7 * ∑ a, ∑ b, |m a b| := by
  obtain ⟨o₁, t₁, items, e1, e2, e3, e4, e5⟩ := ready_setup (order := id) (fun _ => .refl _) lat pos
    (ready m (v := fun _ => some v) fun _ => rfl)
  rw [h] at e1
  simp only [Prod.mk.injEq, Except.ok.injEq] at e1
  obtain ⟨rfl, rfl⟩ := e1
  have hat := e4.trans (atoms m)
  obtain ⟨hv1, hv2⟩ := St.values_of_pairE (wf m) e3.wf (fun _ _ => ⟨rfl, one_ne_zero⟩) e3.atoms two_ne_zero (d := true) (n := false)
    (e := 1) (o := 1) rfl e2.flags one_ne_zero one_ne_zero e3.pairE e3.siteE
  have hex : t.exch = [] := by
    rcases he : t.exch with _ | ⟨q, l⟩
    · rfl
    · have : q.1 ∈ t.exch.keys := List.mem_map.2 ⟨q, by rw [he]; simp, rfl⟩
      rw [← St.isSome_valE_iff, hv1] at this
      exact absurd this (by simp [St.valE, st, PyDict.get?])
  have hon : ∃ x, t.onSite = [(fe1, x)] ∧ t.cell x = m := by
    have hk : ∀ q ∈ t.onSite, q.1 = fe1 := fun q hq => by
      have := (e2.like_atoms (p := ((q.1, q.1, (0, 0, 0)), t.cell q.2)) (List.mem_append_left _ (List.mem_map.2
        ⟨(q.1, t.cell q.2), List.mem_map.2 ⟨q, hq, rfl⟩, rfl⟩))).1
      rwa [hat, List.mem_singleton] at this
    have hv : t.valO fe1 = some m := by rw [hv2]; rfl
    rcases he : t.onSite with _ | ⟨q, l⟩
    · rw [St.valO, he] at hv; simp [PyDict.get?] at hv
    · obtain ⟨q1, q2⟩ := q
      have hq : q1 = fe1 := hk (q1, q2) (by rw [he]; simp)
      subst hq
      rcases l with _ | ⟨q', l⟩
      · refine ⟨q2, rfl, ?_⟩
        rw [St.valO, he] at hv
        simpa [PyDict.get?] using hv
      · have hn := e2.inv.nodup.site
        have := hk q' (by rw [he]; simp)
        rw [he] at hn
        simp [PyDict.keys, this] at hn
  obtain ⟨x, hx, hxm⟩ := hon
  have hl : likeItems t = [((fe1, fe1, (0, 0, 0)), m)] := by
    rw [likeItems, St.onSiteItems, St.exchangeItems, hex, hx]
    simp [hxm]
  have hj : ∀ a b, o.jSize t.cell (fun _ => 1) 0 0 a b = |m a b| := fun a b => by
    have := congrArg (List.map fun q : Bond × M3 ℝ => if [fe1].idxOf q.1.1 = 0 ∧ [fe1].idxOf q.1.2.1 = 0 then |q.2 a b| else 0) (e2.values.trans hl)
    rw [jSize, e2.bonds, hat]
    simp only [List.map_map] at this ⊢
    have h6 := congrArg List.sum this
    simpa [Function.comp_def] using h6
  have hN : o.N = 1 := by rw [e2.N, hat]; rfl
  have hz : ∀ i : Fin o.N, (i : ℕ) = 0 := fun i => by have := i.2; omega
  have hS : norm3 (o.S.getD 0 0) = 1 := by
    obtain ⟨v', q, e, -, -⟩ := axes_at e2 (fun _ => .refl _) ⟨0, by omega⟩
    simp only [Option.some.injEq] at q
    rw [e, ← q, h1]
  have hb : o.bondTotal t.cell 0 0 = ∑ a, ∑ b, |m a b| := by simp only [bondTotal, hj]
  have h0 : 0 ≤ ∑ a, ∑ b, |m a b| := Finset.sum_nonneg fun a _ => Finset.sum_nonneg fun b _ => abs_nonneg _
  have hi : ∀ i j : Fin o.N, i = j := fun i j => Fin.ext (by rw [hz, hz])
  rcases r with i | i <;> rcases c with j | j <;> simp only [tiltSize, hz, hS, hb, hi i j, if_true, mul_one, Real.sqrt_one]
  · rw [hN, Finset.sum_range_one, hS, hb]; linarith
  · linarith
  · linarith
  · rw [hN, Finset.sum_range_one, hS, hb]; linarith

end TiltExample

open Magnopy.SiteExample in
/-- C107: the atom with an easy axis, turned together with its spin by 2e-9, which refutes C72.  Its energy is the same up to the fraction 1e-6. -/
example : ∃ o t o' t', init id 1 (fun _ => 0) (fun _ => some ![0, 0, 1]) (st easy) = (.ok o, t) ∧
    init id 1 (fun _ => 0) (fun _ => some Magnopy.SiteExample.tilt) (st (small * easy * smallᵀ)) = (.ok o', t') ∧
    ∃ e e' : Fin o.N ⊕ Fin o.N → ℝ, (∀ i, 0 < e i ∧ 0 < e' i ∧ |e' i - e i| ≤ 1 / 10 ^ 6 * e i) ∧
      ∀ chol eig sort chol' eig' sort', IsCholesky chol → IsEig eig → IsSort sort → IsCholesky chol' → IsEig eig' → IsSort sort' →
        ∀ (junk : Mat o.N) (junk' : Mat o'.N) (z rg im : Bool),
          (o.omega t.cell (Colpa.solve chol eig sort) junk z rg im 0).1.1 = energyArray (fun i => (e i : ℂ)) rg ∧
          (o'.omega t'.cell (Colpa.solve chol' eig' sort') junk' z rg im 0).1.1 = energyArray (fun i => (e' i : ℂ)) rg := by
  have hsym : (small * easy * smallᵀ)ᵀ = small * easy * smallᵀ := by
    rw [transpose_mul, transpose_mul, transpose_transpose, ← Matrix.mul_assoc]
    congr 2
    ext i j
    fin_cases i <;> fin_cases j <;> rfl
  have hesym : easyᵀ = easy := by
    ext i j
    fin_cases i <;> fin_cases j <;> rfl
  obtain ⟨o, t, g1, g2⟩ := mode hesym norm3_z span_z 1 fun _ => 0
  obtain ⟨o', t', g1', g2'⟩ := mode hsym norm3_tilt span_tilt 1 fun _ => 0
  refine ⟨o, t, o', t', g1, g1', ?_⟩
  have hl := SpectrumExample.less (x := 1) (g2 0)
  have hp := (hl.posDef_iff.2 ⟨by simp [easy], by simp [easy]⟩).posSemidef
  have hN : o.N = 1 := (g2 0).one
  obtain ⟨e, e', h1, h2⟩ := C107_energies (f := Magnopy.SiteExample.turned) (δ := 0) (fun _ => .refl _) (fun _ => .refl _) (ready _ fun _ => rfl) (ready _ fun _ => rfl)
    (symmetric hesym) (symmetric hsym) turned_holds turned_moves le_rfl (by norm_num)
    (fun a _ => ⟨Magnopy.SiteExample.tilt, Magnopy.SiteExample.tilt, rfl, rfl, fun h => by have := norm3_tilt; rw [h] at this; simp [norm3] at this, rfl, by simp [distSq]⟩)
    g1 g1' 0 one_pos hp (η := 4 / 10 ^ 7) (by norm_num) (fun r c => by
      have := TiltExample.total g1' norm3_tilt r c
      have h3 : ∑ a, ∑ b, |(small * easy * smallᵀ) a b| ≤ 11 / 10 := by
        simp [small, easy, Matrix.mul_apply, Fin.sum_univ_three, abs_mul]
        norm_num [abs_of_pos]
      nlinarith) (by rw [hN]; norm_num)
  refine ⟨e, e', fun i => ⟨(h1 i).1, (h1 i).2.1, (h1 i).2.2.trans ?_⟩, fun chol eig sort chol' eig' sort' a b c d f g junk junk' z rg im => ?_⟩
  · have := (h1 i).1
    rw [hN]
    norm_num
    linarith
  · have := h2 chol eig sort chol' eig' sort' a b c d f g junk junk' z rg im
    rwa [mulVec_zero] at this

end MagnonObj
end Magnopy
