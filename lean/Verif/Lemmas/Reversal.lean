import Verif.Lemmas.DescribeSetup
import Verif.Lemmas.Axes
import Verif.Lemmas.Similar
import Verif.Props.Magnon

/-!
# Helper lemmas: reversed spins
-/

set_option autoImplicit false
set_option linter.unusedSectionVars false

namespace Magnopy

open PyDict Matrix Complex MagnonObj ComplexOrder

/-! ### Local axes -/

theorem norm3_neg (v : V3 ℝ) : EnergyObj.norm3 (-v) = EnergyObj.norm3 v := by
  unfold EnergyObj.norm3
  simp

theorem allClose_neg {d : V3 ℝ} {x : ℝ} (hx : |x| = 1) : Frame.AllClose (-d) ![0, 0, -x] ↔ Frame.AllClose d ![0, 0, x] := by
  rw [Frame.allClose_iff (by rw [abs_neg, hx]), Frame.allClose_iff hx]
  simp only [Pi.neg_apply, abs_neg]
  rw [show -d 2 - -x = -(d 2 - x) by ring, abs_neg]

/-- The third axis outside of the band. -/
theorem span_outside {v : V3 ℝ} (hv : v ≠ 0) (h1 : ¬ Frame.AllClose (EnergyObj.normalize v) ![0, 0, 1])
    (h2 : ¬ Frame.AllClose (EnergyObj.normalize v) ![0, 0, -1]) : Frame.span v 2 = EnergyObj.normalize v := by
  obtain ⟨_, d, hd, h3, _⟩ := C42_frame v hv
  have hn := Frame.normalize_directs hv
  obtain rfl := directs_unique hd hn
  apply h3
  by_contra hc
  push Not at hc
  have hu : EnergyObj.normalize v 0 ^ 2 + EnergyObj.normalize v 1 ^ 2 + EnergyObj.normalize v 2 ^ 2 = 1 := by
    have := hn.1
    simp only [IsUnit3, dotProduct, Fin.sum_univ_three] at this
    linear_combination this
  rcases le_total 0 (EnergyObj.normalize v 2) with h | h
  · refine h1 ((Frame.allClose_iff (by simp)).2 ⟨hc.1, hc.2, ?_⟩)
    have := Frame.third_close hu hc.1 hc.2 h
    linarith [show (0 : ℝ) < 1 / 10 ^ 5 by norm_num]
  · refine h2 ((Frame.allClose_iff (by simp)).2 ⟨hc.1, hc.2, ?_⟩)
    have := Frame.third_close (c := -EnergyObj.normalize v 2) (by rw [neg_sq]; exact hu) hc.1 hc.2 (by linarith)
    rw [show EnergyObj.normalize v 2 - -1 = -(-EnergyObj.normalize v 2 - 1) by ring, abs_neg]
    linarith [show (0 : ℝ) < 1 / 10 ^ 5 by norm_num]

/-- The third axis is reversed with the spin, also in the band. -/
theorem span_reverse {v : V3 ℝ} (hv : v ≠ 0) : Frame.span (-v) 2 = -Frame.span v 2 := by
  have hex : ¬ (Frame.AllClose (EnergyObj.normalize v) ![0, 0, 1] ∧ Frame.AllClose (EnergyObj.normalize v) ![0, 0, -1]) := by
    rw [Frame.allClose_iff (by simp), Frame.allClose_iff (by simp)]
    rintro ⟨⟨_, _, h⟩, _, _, h'⟩
    rw [abs_le] at h h'
    norm_num at h h'
    linarith
  have hm : Frame.AllClose (EnergyObj.normalize (-v)) ![0, 0, -1] ↔ Frame.AllClose (EnergyObj.normalize v) ![0, 0, 1] := by
    rw [normalize_neg]; exact allClose_neg (by simp)
  have hp : Frame.AllClose (EnergyObj.normalize (-v)) ![0, 0, 1] ↔ Frame.AllClose (EnergyObj.normalize v) ![0, 0, -1] := by
    rw [normalize_neg]
    have := allClose_neg (d := EnergyObj.normalize v) (x := -1) (by simp)
    rwa [neg_neg] at this
  by_cases h1 : Frame.AllClose (EnergyObj.normalize v) ![0, 0, 1]
  · have h2 : ¬ Frame.AllClose (EnergyObj.normalize (-v)) ![0, 0, 1] := fun h => hex ⟨h1, hp.1 h⟩
    unfold Frame.span
    simp only [if_pos h1, if_neg h2, if_pos (hm.2 h1)]
    ext i; fin_cases i <;> simp
  by_cases h2 : Frame.AllClose (EnergyObj.normalize v) ![0, 0, -1]
  · unfold Frame.span
    simp only [if_neg h1, if_pos h2, if_pos (hp.2 h2)]
    ext i; fin_cases i <;> simp
  · rw [span_outside hv h1 h2, span_outside (neg_ne_zero.2 hv) (fun h => h2 (hp.1 h)) (fun h => h1 (hm.1 h)), normalize_neg]

/-- The axes of a reversed spin. -/
theorem axes_neg {v : V3 ℝ} (hv : v ≠ 0) :
    (∃ z : ℂ, z * star z = 1 ∧ uOf (-v) = z • star (uOf v)) ∧ vOf (-v) = -vOf v := by
  have hR := (C42_frame v hv).1
  constructor
  · have hF : RightHanded (Matrix.of fun i => (![1, -1, -1] : Fin 3 → ℝ) i • Frame.span v i) := by
      constructor
      · intro i j
        show ((![1, -1, -1] : Fin 3 → ℝ) i • Frame.span v i) ⬝ᵥ ((![1, -1, -1] : Fin 3 → ℝ) j • Frame.span v j) = _
        rw [smul_dotProduct, dotProduct_smul, hR.ortho]
        fin_cases i <;> fin_cases j <;> simp
      · show crossProduct ((1 : ℝ) • Frame.span v 0) ((-1 : ℝ) • Frame.span v 1) = (-1 : ℝ) • Frame.span v 2
        rw [one_smul, map_smul, hR.hand]
    obtain ⟨z, hz, e⟩ := hF.same_axis (C42_frame _ (neg_ne_zero.2 hv)).1
      ((span_reverse hv).trans (by show _ = (-1 : ℝ) • Frame.span v 2; rw [neg_one_smul]))
    refine ⟨z, hz, ?_⟩
    rw [uOf_eq, e]
    congr 1
    funext c
    simp [cu, uOf]
  · funext c
    rw [vOf_eq, span_reverse hv]
    simp [vOf, cvec]

/-! ### The object -/

variable {order : List Atom → List Atom} {lat : M3 ℝ} {pos : Atom → V3 ℝ} {spinVec spinVec' : Atom → Option (V3 ℝ)}
  {s : St ℝ} {o : MagnonObj} {t : St ℝ} {items : List (Bond × ℕ)}

/-- The object with reversed spins. -/
noncomputable def MagnonObj.reversed (o : MagnonObj) : MagnonObj :=
  { o with S := o.S.map (-·), u := (o.S.map (-·)).map uOf, v := (o.S.map (-·)).map vOf }

theorem spinVectors_neg {l : List Atom} (h : ∀ a ∈ l, spinVec' a = (spinVec a).map (-·)) {S : List (V3 ℝ)}
    (hS : spinVectors spinVec l = .ok S) : spinVectors spinVec' l = .ok (S.map (-·)) := by
  induction l generalizing S with
  | nil =>
    simp only [spinVectors, Except.ok.injEq] at hS ⊢
    rw [← hS]; rfl
  | cons a l ih =>
    rw [spinVectors] at hS ⊢
    rw [h a List.mem_cons_self]
    cases hx : spinVec a with
    | none => rw [hx] at hS; simp at hS
    | some x =>
      rw [hx] at hS
      simp only [Option.map_some] at hS ⊢
      cases hl : spinVectors spinVec l with
      | error e => rw [hl] at hS; simp at hS
      | ok xs =>
        rw [hl] at hS
        rw [ih (fun a ha => h a (List.mem_cons_of_mem _ ha)) hl]
        simp only [Except.ok.injEq] at hS ⊢
        rw [← hS]; rfl

theorem init_reversed (h : init order lat pos spinVec s = (.ok o, t))
    (hv : ∀ a ∈ (s.copy.setNotation (.str "SpinW")).st.magneticAtoms order, spinVec' a = (spinVec a).map (-·)) :
    init order lat pos spinVec' s = (.ok o.reversed, t) := by
  unfold init at h ⊢
  simp only at h ⊢
  generalize s.copy.setNotation (.str "SpinW") = r at h hv ⊢
  obtain ⟨t0, err⟩ := r
  cases err with
  | some e => simp at h
  | none =>
    simp only at h ⊢
    cases hi : LikeIter.init t0 with
    | error e => rw [hi] at h; simp at h
    | ok it =>
      rw [hi] at h
      simp only at h ⊢
      cases hc : collectIter LikeIter.next (EnergyObj.likeFuel t0) (it, t0) with
      | error e => rw [hc] at h; simp at h
      | ok p =>
        obtain ⟨items, it', t'⟩ := p
        rw [hc] at h
        simp only at h ⊢
        cases hb : bondsOf (EnergyObj.indices (t0.magneticAtoms order)) (vector lat pos) items with
        | error e => rw [hb] at h; simp at h
        | ok bonds =>
          rw [hb] at h
          simp only at h ⊢
          cases hS : spinVectors spinVec (t0.magneticAtoms order) with
          | error e => rw [hS] at h; simp at h
          | ok S =>
            rw [hS] at h
            simp only [Prod.mk.injEq, Except.ok.injEq] at h
            obtain ⟨rfl, rfl⟩ := h
            rw [spinVectors_neg hv hS]
            rfl

theorem J_reversed (o : MagnonObj) (cell : ℕ → M3 ℝ) (k : V3 ℝ) (i j : ℕ) : o.reversed.J cell k i j = o.J cell k i j := rfl

/-- Spins and axes of the reversed object. -/
structure Flipped (o o' : MagnonObj) (z : Fin o.N → ℂ) : Prop where
  unit : ∀ i, z i * star (z i) = 1
  S : ∀ i : Fin o.N, EnergyObj.norm3 (o'.S.getD i 0) = EnergyObj.norm3 (o.S.getD i 0)
  u : ∀ i : Fin o.N, o'.u.getD i 0 = z i • star (o.u.getD i 0)
  v : ∀ i : Fin o.N, o'.v.getD i 0 = -o.v.getD i 0

theorem flipped (h : ObjSpec order lat pos spinVec s o t items) (hord : ∀ l, (order l).Perm l)
    (h0 : ∀ a ∈ t.magneticAtoms order, spinVec a ≠ some 0) : ∃ z, Flipped o o.reversed z := by
  have hex : ∀ i : Fin o.N, ∃ z : ℂ, z * star z = 1 ∧ EnergyObj.norm3 (o.reversed.S.getD i 0) = EnergyObj.norm3 (o.S.getD i 0) ∧
      o.reversed.u.getD i 0 = z • star (o.u.getD i 0) ∧ o.reversed.v.getD i 0 = -o.v.getD i 0 := by
    intro i
    obtain ⟨v, hv, e1, e2, e3⟩ := axes_at h hord i
    have hne : v ≠ 0 := fun e => h0 _ (atomAt_mem h hord i) (e ▸ hv)
    have hlen : (i : ℕ) < o.S.length := by
      obtain ⟨sv, _, hS⟩ := h.S
      rw [hS, List.length_map, ← h.N]
      exact i.2
    obtain ⟨⟨z, hz, hu⟩, hvv⟩ := axes_neg hne
    have hSi : o.S[(i : ℕ)] = v := by rw [← e1]; simp [List.getD, hlen]
    refine ⟨z, hz, ?_, ?_, ?_⟩
    · rw [e1]; simp [reversed, List.getD, hlen, hSi, norm3_neg]
    · rw [e2, ← hu]; simp [reversed, List.getD, hlen, hSi]
    · rw [e3, ← hvv]; simp [reversed, List.getD, hlen, hSi]
  choose z hz using hex
  exact ⟨z, fun i => (hz i).1, fun i => (hz i).2.1, fun i => (hz i).2.2.1, fun i => (hz i).2.2.2⟩

/-- The matrix of the reversed object at `-k`. -/
theorem h_reversed {z : Fin o.N → ℂ} {cell : ℕ → M3 ℝ} (ha : Flipped o o.reversed z) (hC : o.C = none) (hv : o.v = o.S.map vOf) (k : V3 ℝ)
    (r c : Fin o.N ⊕ Fin o.N) : (o.reversed.callH cell (-k)).1 r c =
      Sum.elim z (star z) r * star ((o.callH cell k).1 r c) * star (Sum.elim z (star z) c) := by
  have hroot : ∀ i j : Fin o.N, o.reversed.root i j = o.root i j := by
    intro i j
    unfold root
    rw [ha.S, ha.S]
  have hA : ∀ k (i j : Fin o.N), o.reversed.A cell (-k) i j = z i * star (o.A cell k i j) * star (z j) := by
    intro k i j
    unfold A
    rw [hroot, ha.u, ha.u, J_reversed, star_mul', root_star, star_bilin, star_star, J_conj, star_smul, star_star, smul_dotProduct,
      mulVec_smul, dotProduct_smul, smul_eq_mul, smul_eq_mul]
    ring
  have hB : ∀ (i j : Fin o.N), o.reversed.B cell (-k) i j = z i * star (o.B cell k i j) * z j := by
    intro i j
    unfold B
    rw [hroot, ha.u, ha.u, J_reversed, star_mul', root_star, star_bilin, J_conj, smul_dotProduct, mulVec_smul, dotProduct_smul,
      smul_eq_mul, smul_eq_mul]
    ring
  have hCC : ∀ (i j : Fin o.N), o.reversed.freshC cell i j = o.freshC cell i j := by
    intro i j
    unfold freshC
    by_cases hij : i = j
    · subst hij
      rw [if_pos rfl, if_pos rfl]
      show ∑ l ∈ Finset.range o.N, _ = _
      rw [Finset.sum_range, Finset.sum_range]
      refine Finset.sum_congr rfl fun l _ => ?_
      rw [ha.S, ha.v, ha.v, J_reversed, mulVec_neg, dotProduct_neg, neg_dotProduct, neg_neg]
    · rw [if_neg fun h => hij (Fin.ext h), if_neg fun h => hij (Fin.ext h)]
  have hCr : ∀ i j : Fin o.N, star (o.freshC cell i j) = o.freshC cell i j := fun i j => freshC_star cell hv i j
  have hzC : ∀ (i j : Fin o.N), z i * o.freshC cell i j * star (z j) = o.freshC cell i j := by
    intro i j
    by_cases hij : i = j
    · subst hij
      rw [mul_right_comm, ha.unit, one_mul]
    · unfold freshC
      rw [if_neg fun h => hij (Fin.ext h), mul_zero, zero_mul]
  have hzC' : ∀ (i j : Fin o.N), star (z i) * o.freshC cell i j * z j = o.freshC cell i j := by
    intro i j
    by_cases hij : i = j
    · subst hij
      rw [mul_right_comm, mul_comm (star (z i)), ha.unit, one_mul]
    · unfold freshC
      rw [if_neg fun h => hij (Fin.ext h), mul_zero, zero_mul]
  have h2 : ∀ {n : ℕ} (M : Matrix (Fin n) (Fin n) ℂ) (i j : Fin n), (2 • M) i j = 2 * M i j := fun M i j => by
    rw [two_smul, two_mul]; rfl
  have s2 : star (2 : ℂ) = 2 := by simp
  have e : (o.reversed.callH cell (-k)).1 =
      (fromBlocks (2 • block o.N (o.reversed.A cell (-k)) - 2 • block o.N (o.reversed.freshC cell)) (2 • block o.N (o.reversed.B cell (-k)))
        (2 • (block o.N (o.reversed.B cell (-k)))ᴴ)
        (2 • (block o.N (o.reversed.A cell (- -k))).map star - 2 • block o.N (o.reversed.freshC cell)) : Mat o.N) :=
    callH_fresh (o := o.reversed) _ hC _
  rw [callH_fresh _ hC, e]
  have hA' : ∀ (i j : Fin o.N), o.reversed.A cell (- -k) i j = z i * star (o.A cell (-k) i j) * star (z j) := fun i j => hA (-k) i j
  rcases r with i | i <;> rcases c with j | j <;>
    simp only [Sum.elim_inl, Sum.elim_inr, fromBlocks_apply₁₁, fromBlocks_apply₁₂, fromBlocks_apply₂₁,
      fromBlocks_apply₂₂, Matrix.sub_apply, h2, block, of_apply, conjTranspose_apply, Matrix.map_apply, Pi.star_apply,
      star_star, star_mul', star_sub, s2, hCr]
  · rw [show o.reversed.A cell (-k) i j = _ from hA k i j, show o.reversed.freshC cell i j = _ from hCC i j]
    linear_combination 2 * hzC i j
  · rw [show o.reversed.B cell (-k) i j = _ from hB i j]
    ring
  · rw [show o.reversed.B cell (-k) j i = _ from hB j i, star_mul', star_mul', star_star]
    ring
  · rw [show o.reversed.A cell (- -k) i j = _ from hA' i j, show o.reversed.freshC cell i j = _ from hCC i j, star_mul', star_mul',
      star_star, star_star]
    linear_combination 2 * hzC' i j

/-! ### Energies of the conjugate matrix -/

namespace Colpa

variable {N : ℕ} {chol chol' : Mat N → Option (Mat N)} {eig eig' : Mat N → (Fin N ⊕ Fin N → ℂ) × Mat N}
  {sort sort' : (Fin N ⊕ Fin N → ℂ) → Equiv.Perm (Fin N ⊕ Fin N)}

theorem solve_transpose (hchol : IsCholesky chol) (heig : IsEig eig) (hsort : IsSort sort) (hchol' : IsCholesky chol')
    (heig' : IsEig eig') (hsort' : IsSort sort') {D : Mat N} (hD : D.IsHermitian) :
    (solve chol' eig' sort' Dᵀ).map Prod.fst = (solve chol eig sort D).map Prod.fst := by
  by_cases hd : D.PosDef
  · obtain ⟨l, h1, h2, h3⟩ := solve_roots hchol heig hsort hd
    obtain ⟨l', h1', h2', h3'⟩ := solve_roots hchol' heig' hsort' hd.transpose
    rw [h3, h3']
    have e : l' = l := by
      refine Descending.unique h1' h1 ?_
      have e0 : (g * Dᵀ).charpoly = (g * D).charpoly := by
        have : g * Dᵀ = (D * g)ᵀ := by rw [transpose_mul]; congr 1; simp [g]
        rw [this, charpoly_transpose, charpoly_mul_comm]
      rw [e0, ← h2] at h2'
      have e1 : ∀ m : Fin N ⊕ Fin N → ℝ, (Finset.univ.val.map fun i => (m i : ℂ)) =
          (Finset.univ.val.map m).map fun x : ℝ => (x : ℂ) := fun m => by rw [Multiset.map_map]; rfl
      rw [e1, e1] at h2'
      exact Multiset.map_injective Complex.ofReal_injective h2'
    rw [e]
  · have hd' : ¬ (Dᵀ).PosDef := fun hp => hd (by simpa using hp.transpose)
    rw [C41_failure hchol D hD hd, C41_failure hchol' _ hD.transpose hd']

end Colpa

namespace MagnonObj

variable {N : ℕ} {chol chol' : Mat N → Option (Mat N)} {eig eig' : Mat N → (Fin N ⊕ Fin N → ℂ) × Mat N}
  {sort sort' : (Fin N ⊕ Fin N → ℂ) → Equiv.Perm (Fin N ⊕ Fin N)}

/-- The transposed (conjugate) matrix gives the same array of energies. -/
theorem omegaOf_transpose (hchol : IsCholesky chol) (heig : IsEig eig) (hsort : IsSort sort) (hchol' : IsCholesky chol')
    (heig' : IsEig eig') (hsort' : IsSort sort') {D : Mat N} (hD : D.IsHermitian) (junk junk' : Mat N) (z r im : Bool) :
    (omegaOf (Colpa.solve chol' eig' sort') junk' z r im Dᵀ).1 = (omegaOf (Colpa.solve chol eig sort) junk z r im D).1 := by
  have key : ∀ M : Mat N, M.IsHermitian → (Colpa.solve chol' eig' sort' Mᵀ).map Prod.fst =
      (Colpa.solve chol eig sort M).map Prod.fst := fun M hM =>
    Colpa.solve_transpose hchol heig hsort hchol' heig' hsort' hM
  have hsh : ∀ (M : Mat N) (x : ℝ), shift Mᵀ x = (shift M x)ᵀ := by
    intro M x
    unfold shift
    rw [transpose_add, diagonal_transpose]
  have hher : ∀ (M : Mat N) (x : ℝ), M.IsHermitian → (shift M x).IsHermitian := by
    intro M x hM
    unfold shift
    refine hM.add ?_
    rw [Matrix.IsHermitian, diagonal_conjTranspose]
    congr 1
    ext i
    simp
  refine omegaOf_congr _ _ _ _ _ (attempts_congr (key D hD) ?_ ?_ ?_)
  · rw [hsh]; exact key _ (hher _ _ hD)
  · rw [← transpose_neg]; exact key _ hD.neg
  · rw [← transpose_neg, hsh]; exact key _ (hher _ _ hD.neg)

/-- Matrices that are conjugate up to a permutation of the atoms and phases give the same array of energies. -/
theorem omegaOf_conjugate {N' : ℕ} {chol' : Mat N' → Option (Mat N')} {eig' : Mat N' → (Fin N' ⊕ Fin N' → ℂ) × Mat N'}
    {sort' : (Fin N' ⊕ Fin N' → ℂ) → Equiv.Perm (Fin N' ⊕ Fin N')}
    (hchol : IsCholesky chol) (heig : IsEig eig) (hsort : IsSort sort) (hchol' : IsCholesky chol')
    (heig' : IsEig eig') (hsort' : IsSort sort') {D : Mat N} {D' : Mat N'} (e : Fin N ≃ Fin N') (w : Fin N ⊕ Fin N → ℂ)
    (hw : ∀ i, w i * star (w i) = 1) (hD : D.IsHermitian)
    (hDD : ∀ r c, D' (Sum.map e e r) (Sum.map e e c) = w r * star (D r c) * star (w c)) (junk : Mat N) (junk' : Mat N') (z r im : Bool) :
    (omegaOf (Colpa.solve chol' eig' sort') junk' z r im D').1 = (omegaOf (Colpa.solve chol eig sort) junk z r im D).1 := by
  rw [← omegaOf_transpose hchol heig hsort hchol heig hsort hD junk junk z r im]
  refine omegaOf_relabel hchol heig hsort hchol' heig' hsort' e w hw hD.transpose (fun r c => ?_) junk junk' z r im
  rw [hDD, transpose_apply, ← hD.apply r c, star_star]

end MagnonObj

end Magnopy
