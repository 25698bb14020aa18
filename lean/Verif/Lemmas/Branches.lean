import Verif.Lemmas.Similar
import Verif.Lemmas.OneMode
import Verif.Props.Omega

/-!
# Helper lemmas: branches of the dispersion
-/

set_option autoImplicit false
set_option linter.unusedSectionVars false

namespace Magnopy

open Matrix Complex MagnonObj Magnopy.Colpa
open scoped ComplexOrder Classical

variable {N : ℕ} {chol : Mat N → Option (Mat N)} {eig : Mat N → (Fin N ⊕ Fin N → ℂ) × Mat N}
    {sort : (Fin N ⊕ Fin N → ℂ) → Equiv.Perm (Fin N ⊕ Fin N)}

/-- An eigenvector for a root of the characteristic polynomial. -/
theorem exists_eigenvector {n : Type*} [Fintype n] [DecidableEq n] {M : Matrix n n ℂ} {x : ℂ} (hx : x ∈ M.charpoly.roots) :
    ∃ v : n → ℂ, v ≠ 0 ∧ M *ᵥ v = x • v := by
  have hdet := (Polynomial.mem_roots'.1 hx).2
  rw [Polynomial.IsRoot.def, Matrix.eval_charpoly] at hdet
  obtain ⟨v, hv, he⟩ := Matrix.exists_mulVec_eq_zero_iff.2 hdet
  refine ⟨v, hv, ?_⟩
  rw [sub_mulVec, sub_eq_zero] at he
  rw [← he]
  funext i
  simp [Matrix.scalar_apply, mulVec_diagonal]

theorem root_pos {n : Type*} [Fintype n] [DecidableEq n] {M : Matrix n n ℂ} (hM : M.PosDef) {x : ℂ} (hx : x ∈ M.charpoly.roots) :
    0 < x := by
  obtain ⟨v, hv, he⟩ := exists_eigenvector hx
  have h1 := hM.dotProduct_mulVec_pos hv
  have h2 := dotProduct_star_self_pos_iff.2 hv
  rw [he, dotProduct_smul, smul_eq_mul] at h1
  exact (pos_iff_pos_of_mul_pos h1).2 h2

theorem root_neg {n : Type*} [Fintype n] [DecidableEq n] {M : Matrix n n ℂ} (hM : M.PosDef) {x : ℂ} (hx : x ∈ (-M).charpoly.roots) :
    x < 0 := by
  obtain ⟨v, hv, he⟩ := exists_eigenvector hx
  have h1 := hM.dotProduct_mulVec_pos hv
  have h2 := dotProduct_star_self_pos_iff.2 hv
  have he' : M *ᵥ v = (-x) • v := by
    rw [neg_smul, ← he, neg_mulVec, neg_neg]
  rw [he', dotProduct_smul, smul_eq_mul] at h1
  have := (pos_iff_pos_of_mul_pos h1).2 h2
  exact neg_pos.1 this

/-- The energies of a matrix of two equal blocks are the eigenvalues of the block. -/
theorem solve_blocks (hchol : IsCholesky chol) (heig : IsEig eig) (hsort : IsSort sort) {M : Matrix (Fin N) (Fin N) ℂ}
    (hM : M.PosDef) (hD : (fromBlocks M 0 0 M : Mat N).PosDef) :
    ∃ E G, Colpa.solve chol eig sort (fromBlocks M 0 0 M) = some (E, G) ∧ ∃ w : Fin N → ℝ, (∀ i, E (.inl i) = w i) ∧
      (∀ i j, i ≤ j → w j ≤ w i) ∧ (Finset.univ.val.map fun i => (w i : ℂ)) = M.charpoly.roots := by
  obtain ⟨l, h1, h2, h3⟩ := Colpa.solve_roots hchol heig hsort hD
  obtain ⟨E, G, h4, h5⟩ := C41_energies hchol heig hsort _ hD
  rw [h4, Option.map_some, Option.some.injEq] at h3
  simp only at h3
  have hl : ∀ i, E (.inl i) = (l (.inl i) : ℂ) := fun i => by rw [h3]; simp [Colpa.sgn]
  have hr : ∀ i, E (.inr i) = ((-l (.inr i) : ℝ) : ℂ) := fun i => by rw [h3]; simp [Colpa.sgn]
  refine ⟨E, G, h4, fun i => l (.inl i), hl, fun i j hij => h1.first i j hij, ?_⟩
  have hg : (Colpa.g : Mat N) * fromBlocks M 0 0 M = fromBlocks M 0 0 (-M) := by
    ext i j
    rw [Colpa.g, diagonal_mul]
    rcases i with i | i <;> rcases j with j | j <;> simp
  rw [hg, charpoly_fromBlocks_zero₁₂] at h2
  rw [Polynomial.roots_mul (mul_ne_zero (charpoly_monic _).ne_zero (charpoly_monic _).ne_zero)] at h2
  have hsum : (Finset.univ.val.map fun i : Fin N ⊕ Fin N => (l i : ℂ)) =
      (Finset.univ.val.map fun i : Fin N => (l (.inl i) : ℂ)) + Finset.univ.val.map fun i : Fin N => (l (.inr i) : ℂ) := by
    rw [← Finset.univ_disjSum_univ]
    simp [Finset.disjSum, Multiset.disjSum]
    exact List.Perm.refl _
  rw [hsum] at h2
  classical
  have h6 := congrArg (Multiset.filter fun x : ℂ => 0 < x) h2
  rw [Multiset.filter_add, Multiset.filter_add] at h6
  have e1 : Multiset.filter (fun x : ℂ => 0 < x) (Finset.univ.val.map fun i : Fin N => (l (.inl i) : ℂ)) =
      Finset.univ.val.map fun i : Fin N => (l (.inl i) : ℂ) := by
    rw [Multiset.filter_eq_self]
    intro x hx
    obtain ⟨i, _, rfl⟩ := Multiset.mem_map.1 hx
    have := h5.pos (.inl i)
    rw [hl, Complex.ofReal_re] at this
    exact_mod_cast this
  have e2 : Multiset.filter (fun x : ℂ => 0 < x) (Finset.univ.val.map fun i : Fin N => (l (.inr i) : ℂ)) = 0 := by
    rw [Multiset.filter_eq_nil]
    intro x hx
    obtain ⟨i, _, rfl⟩ := Multiset.mem_map.1 hx
    have := h5.pos (.inr i)
    rw [hr, Complex.ofReal_re] at this
    rw [Complex.zero_lt_real, not_lt]
    linarith
  have e3 : Multiset.filter (fun x : ℂ => 0 < x) M.charpoly.roots = M.charpoly.roots := by
    rw [Multiset.filter_eq_self]
    exact fun x hx => root_pos hM hx
  have e4 : Multiset.filter (fun x : ℂ => 0 < x) (-M).charpoly.roots = 0 := by
    rw [Multiset.filter_eq_nil]
    exact fun x hx h0 => lt_asymm h0 (root_neg hM hx)
  rwa [e1, e2, e3, e4, add_zero, add_zero] at h6

theorem blocks_posDef {M : Matrix (Fin N) (Fin N) ℂ} : (fromBlocks M 0 0 M : Mat N).PosDef ↔ M.PosDef := by
  constructor
  · intro h
    have := h.submatrix (e := (Sum.inl : Fin N → Fin N ⊕ Fin N)) Sum.inl_injective
    exact this
  · intro h
    refine .of_dotProduct_mulVec_pos ?_ fun x hx => ?_
    · rw [IsHermitian, fromBlocks_conjTranspose, h.1.eq]; simp
    · have e : star x ⬝ᵥ (fromBlocks M 0 0 M *ᵥ x) = star (x ∘ .inl) ⬝ᵥ (M *ᵥ (x ∘ .inl)) + star (x ∘ .inr) ⬝ᵥ (M *ᵥ (x ∘ .inr)) := by
        rw [fromBlocks_mulVec]
        simp [dotProduct]
      rw [e]
      by_cases h0 : x ∘ .inl = 0
      · have h1 : x ∘ .inr ≠ 0 := by
          intro h1
          apply hx
          funext i
          rcases i with i | i
          · exact congrFun h0 i
          · exact congrFun h1 i
        rw [h0]
        simpa using h.dotProduct_mulVec_pos h1
      · exact add_pos_of_pos_of_nonneg (h.dotProduct_mulVec_pos h0) (h.posSemidef.dotProduct_mulVec_nonneg _)

/-- The energies are the positive eigenvalues of `g D`, in descending order. -/
theorem solve_positive (hchol : IsCholesky chol) (heig : IsEig eig) (hsort : IsSort sort) {D : Mat N} (hD : D.PosDef) :
    ∃ E G, Colpa.solve chol eig sort D = some (E, G) ∧ ∃ w : Fin N → ℝ, (∀ i, E (.inl i) = w i) ∧
      (∀ i j, i ≤ j → w j ≤ w i) ∧
      (Finset.univ.val.map fun i => (w i : ℂ)) = (Colpa.g * D).charpoly.roots.filter fun x : ℂ => 0 < x := by
  obtain ⟨l, h1, h2, h3⟩ := Colpa.solve_roots hchol heig hsort hD
  obtain ⟨E, G, h4, h5⟩ := C41_energies hchol heig hsort _ hD
  rw [h4, Option.map_some, Option.some.injEq] at h3
  simp only at h3
  have hl : ∀ i, E (.inl i) = (l (.inl i) : ℂ) := fun i => by rw [h3]; simp [Colpa.sgn]
  have hr : ∀ i, E (.inr i) = ((-l (.inr i) : ℝ) : ℂ) := fun i => by rw [h3]; simp [Colpa.sgn]
  refine ⟨E, G, h4, fun i => l (.inl i), hl, fun i j hij => h1.first i j hij, ?_⟩
  have hsum : (Finset.univ.val.map fun i : Fin N ⊕ Fin N => (l i : ℂ)) =
      (Finset.univ.val.map fun i : Fin N => (l (.inl i) : ℂ)) + Finset.univ.val.map fun i : Fin N => (l (.inr i) : ℂ) := by
    rw [← Finset.univ_disjSum_univ]
    simp [Finset.disjSum, Multiset.disjSum]
    exact List.Perm.refl _
  rw [hsum] at h2
  rw [← h2, Multiset.filter_add]
  have e1 : Multiset.filter (fun x : ℂ => 0 < x) (Finset.univ.val.map fun i : Fin N => (l (.inl i) : ℂ)) =
      Finset.univ.val.map fun i : Fin N => (l (.inl i) : ℂ) := by
    rw [Multiset.filter_eq_self]
    intro x hx
    obtain ⟨i, _, rfl⟩ := Multiset.mem_map.1 hx
    have := h5.pos (.inl i)
    rw [hl, Complex.ofReal_re] at this
    exact_mod_cast this
  have e2 : Multiset.filter (fun x : ℂ => 0 < x) (Finset.univ.val.map fun i : Fin N => (l (.inr i) : ℂ)) = 0 := by
    rw [Multiset.filter_eq_nil]
    intro x hx
    obtain ⟨i, _, rfl⟩ := Multiset.mem_map.1 hx
    have := h5.pos (.inr i)
    rw [hr, Complex.ofReal_re] at this
    rw [Complex.zero_lt_real, not_lt]
    linarith
  rw [e1, e2, add_zero]

/-! ### Two modes -/

/-- A matrix that couples the first mode only with the conjugate of the second. -/
structure TwoMode {N : ℕ} (D : Mat N) {α : Type*} (a : Fin N → α) (x y : α) (A : α → ℝ) (T : α → α → ℂ) : Prop where
  atoms : List.ofFn a = [x, y]
  inl : ∀ i j, D (.inl i) (.inl j) = if i = j then (A (a i) : ℂ) else 0
  inr : ∀ i j, D (.inr i) (.inr j) = if i = j then (A (a i) : ℂ) else 0
  up : ∀ i j, D (.inl i) (.inr j) = if i = j then 0 else T (a i) (a j)
  down : ∀ i j, D (.inr i) (.inl j) = if i = j then 0 else star (T (a j) (a i))
  norm : normSq (T y x) = normSq (T x y)

/-- The modes of the first and the conjugate of the second, and the other way round. -/
def pairUp : (Fin 1 ⊕ Fin 1) ⊕ (Fin 1 ⊕ Fin 1) ≃ Fin 2 ⊕ Fin 2 where
  toFun := Sum.elim (Sum.elim (fun _ => .inl 0) fun _ => .inr 1) (Sum.elim (fun _ => .inl 1) fun _ => .inr 0)
  invFun := Sum.elim ![.inl (.inl 0), .inr (.inl 0)] ![.inr (.inr 0), .inl (.inr 0)]
  left_inv := by decide
  right_inv := by decide

theorem blocks_posDef' {m n : Type*} [Fintype m] [Fintype n] [DecidableEq m] [DecidableEq n] {P : Matrix m m ℂ} {Q : Matrix n n ℂ} :
    (fromBlocks P 0 0 Q).PosDef ↔ P.PosDef ∧ Q.PosDef := by
  constructor
  · exact fun h => ⟨h.submatrix (e := (Sum.inl : m → m ⊕ n)) Sum.inl_injective,
      h.submatrix (e := (Sum.inr : n → m ⊕ n)) Sum.inr_injective⟩
  · rintro ⟨h, h'⟩
    refine .of_dotProduct_mulVec_pos ?_ fun x hx => ?_
    · rw [IsHermitian, fromBlocks_conjTranspose, h.1.eq, h'.1.eq]; simp
    · have e : star x ⬝ᵥ (fromBlocks P 0 0 Q *ᵥ x) = star (x ∘ .inl) ⬝ᵥ (P *ᵥ (x ∘ .inl)) + star (x ∘ .inr) ⬝ᵥ (Q *ᵥ (x ∘ .inr)) := by
        rw [fromBlocks_mulVec]
        simp [dotProduct]
      rw [e]
      by_cases h0 : x ∘ .inl = 0
      · have h1 : x ∘ .inr ≠ 0 := by
          intro h1
          apply hx
          funext i
          rcases i with i | i
          · exact congrFun h0 i
          · exact congrFun h1 i
        rw [h0]
        simpa using h'.dotProduct_mulVec_pos h1
      · exact add_pos_of_pos_of_nonneg (h.dotProduct_mulVec_pos h0) (h'.posSemidef.dotProduct_mulVec_nonneg _)

theorem posDef_equiv {m n : Type*} [Fintype m] [Fintype n] [DecidableEq m] [DecidableEq n] (e : m ≃ n) {D : Matrix n n ℂ} :
    (D.submatrix e e).PosDef ↔ D.PosDef := by
  constructor
  · intro h
    have := h.submatrix (e := e.symm) e.symm.injective
    simpa [submatrix_submatrix] using this
  · exact fun h => h.submatrix (e := e) e.injective

/-- The matrix of one mode. -/
def modeMatrix (a a' : ℝ) (b : ℂ) : Mat 1 := .of fun i j => Sum.elim
  (fun _ => Sum.elim (fun _ => (a : ℂ)) (fun _ => b) j) (fun _ => Sum.elim (fun _ => star b) (fun _ => (a' : ℂ)) j) i

theorem modeMatrix_mode (a a' : ℝ) (b : ℂ) : OneMode (modeMatrix a a' b) a a' b := ⟨rfl, rfl, rfl, rfl⟩

theorem modeMatrix_posDef {a a' : ℝ} {b : ℂ} : (modeMatrix a a' b).PosDef ↔ 0 < a ∧ normSq b < a * a' :=
  ⟨(modeMatrix_mode a a' b).pos, fun h => (modeMatrix_mode a a' b).posDef h.1 h.2⟩

theorem modeMatrix_roots {a a' : ℝ} {b : ℂ} (h : (modeMatrix a a' b).PosDef) :
    ((Colpa.g * modeMatrix a a' b).charpoly.roots.filter fun x : ℂ => 0 < x) =
      {(((a - a') / 2 + Real.sqrt (((a + a') / 2) ^ 2 - normSq b) : ℝ) : ℂ)} := by
  obtain ⟨chol, h1⟩ := exists_chol (N := 1)
  obtain ⟨eig, h2⟩ := exists_eig (N := 1)
  obtain ⟨sort, h3⟩ := exists_sort (N := 1)
  obtain ⟨E, G, h4, w, h5, _, h6⟩ := solve_positive h1 h2.1 h3 h
  obtain ⟨E', G', h7, h8⟩ := (modeMatrix_mode a a' b).solve h1 h2.1 h3 h
  rw [h4] at h7
  simp only [Option.some.injEq, Prod.mk.injEq] at h7
  obtain ⟨rfl, rfl⟩ := h7
  rw [← h6, ← h8, h5]
  rfl

section two

variable {α : Type*} {a : Fin N → α} {x y : α} {A : α → ℝ} {T : α → α → ℂ} {D : Mat N}

theorem TwoMode.size (h : TwoMode D a x y A T) : N = 2 := by
  have := congrArg List.length h.atoms
  simpa using this

theorem TwoMode.reindex {D : Mat 2} {a : Fin 2 → α} (h : TwoMode D a x y A T) :
    D.submatrix pairUp pairUp = fromBlocks (modeMatrix (A x) (A y) (T x y)) 0 0 (modeMatrix (A y) (A x) (T y x)) ∧
    (Colpa.g * D).submatrix pairUp pairUp =
      fromBlocks (Colpa.g * modeMatrix (A x) (A y) (T x y)) 0 0 (Colpa.g * modeMatrix (A y) (A x) (T y x)) := by
  have hx : a 0 = x ∧ a 1 = y := by
    have := h.atoms
    simpa [List.ofFn_succ] using this
  obtain ⟨rfl, rfl⟩ := hx
  constructor <;> ext i j <;>
    rcases i with (i | i) | (i | i) <;> rcases j with (j | j) | (j | j) <;>
      rw [Subsingleton.elim i 0, Subsingleton.elim j 0] <;>
      simp [pairUp, h.inl, h.inr, h.up, h.down, modeMatrix, Colpa.g]

theorem TwoMode.posDef_iff (h : TwoMode D a x y A T) : D.PosDef ↔ 0 < A x ∧ normSq (T x y) < A x * A y := by
  obtain rfl := h.size
  rw [← posDef_equiv pairUp, h.reindex.1, blocks_posDef', modeMatrix_posDef, modeMatrix_posDef, h.norm]
  constructor
  · exact fun h => h.1
  · intro h1
    refine ⟨h1, ?_, by linarith [h1.2, mul_comm (A x) (A y)]⟩
    have := (normSq_nonneg _).trans_lt h1.2
    exact pos_of_mul_pos_right this h1.1.le

/-- The two energies. -/
theorem TwoMode.solve (hchol : IsCholesky chol) (heig : IsEig eig) (hsort : IsSort sort) (h : TwoMode D a x y A T)
    (hD : D.PosDef) : ∃ E G, Colpa.solve chol eig sort D = some (E, G) ∧
      ((List.finRange N).map fun i => E (.inl i)) =
        [((Real.sqrt (((A x + A y) / 2) ^ 2 - normSq (T x y)) + |A x - A y| / 2 : ℝ) : ℂ),
         ((Real.sqrt (((A x + A y) / 2) ^ 2 - normSq (T x y)) - |A x - A y| / 2 : ℝ) : ℂ)] := by
  obtain rfl := h.size
  obtain ⟨E, G, h4, w, h5, h6, h7⟩ := solve_positive hchol heig hsort hD
  refine ⟨E, G, h4, ?_⟩
  have hb := (posDef_equiv pairUp).2 hD
  rw [h.reindex.1, blocks_posDef'] at hb
  have hc : (Colpa.g * D).charpoly = (Colpa.g * modeMatrix (A x) (A y) (T x y)).charpoly *
      (Colpa.g * modeMatrix (A y) (A x) (T y x)).charpoly := by
    rw [← charpoly_fromBlocks_zero₁₂ _ 0, ← h.reindex.2, ← charpoly_reindex pairUp.symm (Colpa.g * D)]
    rfl
  rw [hc, Polynomial.roots_mul (mul_ne_zero (charpoly_monic _).ne_zero (charpoly_monic _).ne_zero), Multiset.filter_add,
    modeMatrix_roots hb.1, modeMatrix_roots hb.2, h.norm] at h7
  set r := Real.sqrt (((A x + A y) / 2) ^ 2 - normSq (T x y)) with hr
  rw [show ((A y + A x) / 2) ^ 2 = ((A x + A y) / 2) ^ 2 by ring, ← hr] at h7
  have h8 : ({(w 0 : ℂ), (w 1 : ℂ)} : Multiset ℂ) =
      {(((A x - A y) / 2 + r : ℝ) : ℂ), (((A y - A x) / 2 + r : ℝ) : ℂ)} := h7
  have h9 := h6 0 1 (by decide)
  have hl : ((List.finRange 2).map fun i => E (.inl i)) = [(w 0 : ℂ), (w 1 : ℂ)] := by
    rw [← h5, ← h5]; rfl
  rw [hl]
  have h10 : (w 0 = (A x - A y) / 2 + r ∧ w 1 = (A y - A x) / 2 + r) ∨ (w 0 = (A y - A x) / 2 + r ∧ w 1 = (A x - A y) / 2 + r) := by
    have h0 : (w 0 : ℂ) ∈ ({(((A x - A y) / 2 + r : ℝ) : ℂ), (((A y - A x) / 2 + r : ℝ) : ℂ)} : Multiset ℂ) := by
      rw [← h8]; simp
    have hsum := congrArg Multiset.sum h8
    simp only [Multiset.insert_eq_cons, Multiset.sum_cons, Multiset.sum_singleton] at hsum
    have hsum' : w 0 + w 1 = ((A x - A y) / 2 + r) + ((A y - A x) / 2 + r) := by exact_mod_cast hsum
    simp only [Multiset.insert_eq_cons, Multiset.mem_cons, Multiset.mem_singleton, Complex.ofReal_inj] at h0
    rcases h0 with h0 | h0
    · left; exact ⟨h0, by linarith⟩
    · right; exact ⟨h0, by linarith⟩
  have h11 : w 0 = r + |A x - A y| / 2 ∧ w 1 = r - |A x - A y| / 2 := by
    rcases h10 with ⟨e0, e1⟩ | ⟨e0, e1⟩
    · rw [abs_of_nonneg (by linarith)]; constructor <;> linarith
    · rw [abs_of_nonpos (by linarith)]; constructor <;> linarith
  rw [h11.1, h11.2]

end two

/-! ### Reported energies -/

/-- The second attempt. -/
theorem omega_shifted (hchol : IsCholesky chol) (heig : IsEig eig) (hsort : IsSort sort) (h junk : Mat N)
    (hn : ¬ h.PosDef) (hp : (h + diagonal fun _ => 1 / 10 ^ 8).PosDef) (zerosToNone returnG returnImaginary : Bool) :
    ∃ E G, Colpa.solve chol eig sort (h + diagonal fun _ => 1 / 10 ^ 8) = some (E, G) ∧
      omegaOf (Colpa.solve chol eig sort) junk zerosToNone returnG returnImaginary h =
        (energyArray E returnG, if returnG then some G else none) := by
  have he : h + (diagonal fun _ => 1 / 10 ^ 8) = shift h (1 / 10 ^ 8) := by simp [shift]
  have hh : h.IsHermitian := by
    have := hp.1.sub (isHermitian_diagonal_of_self_adjoint (fun _ : Fin N ⊕ Fin N => (1 / 10 ^ 8 : ℂ)) (by
      ext; simp))
    simpa using this
  obtain ⟨E, G, h1, h2⟩ := C41_energies hchol heig hsort _ hp
  refine ⟨E, G, h1, omegaOf_some _ _ _ ?_ fun _ => h2.real⟩
  unfold attempts
  rw [C41_failure hchol h hh hn, ← he, h1]

theorem omega_blocks (hchol : IsCholesky chol) (heig : IsEig eig) (hsort : IsSort sort) {M : Matrix (Fin N) (Fin N) ℂ}
    (hM : M.PosDef) (junk : Mat N) (z im : Bool) : ∃ w : Fin N → ℝ, (∀ i j, i ≤ j → w j ≤ w i) ∧
      (Finset.univ.val.map fun i => (w i : ℂ)) = M.charpoly.roots ∧
      (omegaOf (Colpa.solve chol eig sort) junk z false im (fromBlocks M 0 0 M)).1 =
        (List.finRange N).map fun i => some (round8 (w i)) := by
  obtain ⟨E, G, h1, w, h2, h3, h4⟩ := solve_blocks hchol heig hsort hM (blocks_posDef.2 hM)
  obtain ⟨E', G', h5, h6⟩ := C43_positive hchol heig hsort _ junk (blocks_posDef.2 hM) z false im
  rw [h1] at h5
  simp only [Option.some.injEq, Prod.mk.injEq] at h5
  obtain ⟨rfl, rfl⟩ := h5
  refine ⟨w, h3, h4, ?_⟩
  rw [h6]
  simp [energyArray, h2]

theorem omega_blocks_neg (hchol : IsCholesky chol) (heig : IsEig eig) (hsort : IsSort sort) {M : Matrix (Fin N) (Fin N) ℂ}
    (hM : (-M).PosDef) (hN : 0 < N) (junk : Mat N) (z im : Bool) : ∃ w : Fin N → ℝ, (∀ i j, i ≤ j → w i ≤ w j) ∧
      (Finset.univ.val.map fun i => ((-w i : ℝ) : ℂ)) = (-M).charpoly.roots ∧
      (omegaOf (Colpa.solve chol eig sort) junk z false im (fromBlocks M 0 0 M)).1 =
        (List.finRange N).map fun i => some (round8 (w i)) := by
  have hneg : -(fromBlocks M 0 0 M : Mat N) = fromBlocks (-M) 0 0 (-M) := by
    rw [fromBlocks_neg]; simp
  obtain ⟨E, G, h1, w, h2, h3, h4⟩ := solve_blocks hchol heig hsort hM (blocks_posDef.2 hM)
  obtain ⟨E', G', h5, h6⟩ := C43_negative hchol heig hsort _ junk (hneg ▸ blocks_posDef.2 hM) hN z false im
  rw [hneg, h1] at h5
  simp only [Option.some.injEq, Prod.mk.injEq] at h5
  obtain ⟨rfl, rfl⟩ := h5
  refine ⟨fun i => -w i, fun i j hij => neg_le_neg (h3 i j hij), by simpa using h4, ?_⟩
  rw [h6]
  simp [energyArray, h2]

theorem blocks_shift (M : Matrix (Fin N) (Fin N) ℂ) : (fromBlocks M 0 0 M : Mat N) + (diagonal fun _ => 1 / 10 ^ 8) =
    fromBlocks (M + (1 / 10 ^ 8 : ℂ) • 1) 0 0 (M + (1 / 10 ^ 8 : ℂ) • 1) := by
  rw [smul_one_eq_diagonal]
  ext i j
  rcases i with i | i <;> rcases j with j | j <;> simp [diagonal_apply]

theorem omega_blocks_shifted (hchol : IsCholesky chol) (heig : IsEig eig) (hsort : IsSort sort) {M : Matrix (Fin N) (Fin N) ℂ}
    (hn : ¬ M.PosDef) (hM : (M + (1 / 10 ^ 8 : ℂ) • 1).PosDef) (junk : Mat N) (z im : Bool) :
    ∃ w : Fin N → ℝ, (∀ i j, i ≤ j → w j ≤ w i) ∧
      (Finset.univ.val.map fun i => (w i : ℂ)) = (M + (1 / 10 ^ 8 : ℂ) • 1).charpoly.roots ∧
      (omegaOf (Colpa.solve chol eig sort) junk z false im (fromBlocks M 0 0 M)).1 =
        (List.finRange N).map fun i => some (round8 (w i)) := by
  obtain ⟨E, G, h1, w, h2, h3, h4⟩ := solve_blocks hchol heig hsort hM (blocks_posDef.2 hM)
  obtain ⟨E', G', h5, h6⟩ := omega_shifted hchol heig hsort _ junk (fun h => hn (blocks_posDef.1 h))
    (by rw [blocks_shift]; exact blocks_posDef.2 hM) z false im
  rw [blocks_shift, h1] at h5
  simp only [Option.some.injEq, Prod.mk.injEq] at h5
  obtain ⟨rfl, rfl⟩ := h5
  refine ⟨w, h3, h4, ?_⟩
  rw [h6]
  simp [energyArray, h2]

theorem omega_blocks_none (hchol : IsCholesky chol) {M : Matrix (Fin N) (Fin N) ℂ} (hH : M.IsHermitian)
    (h1 : ¬ (M + (1 / 10 ^ 8 : ℂ) • 1).PosDef) (h2 : ¬ (-M).PosDef) (junk : Mat N) (z im : Bool) :
    (omegaOf (Colpa.solve chol eig sort) junk z false im (fromBlocks M 0 0 M)).1 =
      List.replicate N (if z then none else some 0) := by
  have hneg : -(fromBlocks M 0 0 M : Mat N) = fromBlocks (-M) 0 0 (-M) := by
    rw [fromBlocks_neg]; simp
  rw [C43_fallback hchol _ junk (by rw [IsHermitian, fromBlocks_conjTranspose, hH.eq]; simp)
    (by rw [blocks_shift]; exact fun h => h1 (blocks_posDef.1 h)) (by rw [hneg]; exact fun h => h2 (blocks_posDef.1 h))]
  cases z <;> simp

theorem round8_small {x : ℝ} (h : |x| ≤ 1 / 10 ^ 8) : round8 (x : ℂ) = 0 := by
  unfold round8
  rw [if_pos]
  rwa [Complex.norm_real]

/-- One energy of any sign. -/
theorem omega_one (hchol : IsCholesky chol) (heig : IsEig eig) (hsort : IsSort sort) (hN : N = 1)
    {M : Matrix (Fin N) (Fin N) ℂ} {x : ℝ} (hM : ∀ i j, M i j = x) (junk : Mat N) (z im : Bool) :
    (omegaOf (Colpa.solve chol eig sort) junk z false im (fromBlocks M 0 0 M)).1 = [some (round8 x)] := by
  subst hN
  have hM1 : M = diagonal fun _ => (x : ℂ) := by
    ext i j
    rw [hM, Subsingleton.elim i j, diagonal_apply_eq]
  have hroots : ∀ y : ℝ, (diagonal fun _ : Fin 1 => (y : ℂ)).charpoly.roots = {(y : ℂ)} := by
    intro y
    rw [charpoly_diagonal]
    simp
  have hlist : ∀ w : Fin 1 → ℝ, ∀ y : ℝ, (Finset.univ.val.map fun i => (w i : ℂ)) = {(y : ℂ)} →
      (List.finRange 1).map (fun i => some (round8 (w i))) = [some (round8 y)] := by
    intro w y h
    have : ({(w 0 : ℂ)} : Multiset ℂ) = {(y : ℂ)} := h
    rw [Multiset.singleton_inj] at this
    simp [List.finRange, this]
  rcases lt_trichotomy 0 x with hx | hx | hx
  · have hp : M.PosDef := by
      rw [hM1]
      exact Matrix.PosDef.diagonal fun _ => Complex.zero_lt_real.2 hx
    obtain ⟨w, _, h1, h2⟩ := omega_blocks hchol heig hsort hp junk z im
    rw [h2]
    exact hlist w x (by rw [h1, hM1, hroots])
  · subst hx
    have hn : ¬ M.PosDef := by
      intro hp
      have := hp.diag_pos (i := 0)
      rw [hM] at this
      simp at this
    have hs : M + (1 / 10 ^ 8 : ℂ) • 1 = diagonal fun _ => ((1 / 10 ^ 8 : ℝ) : ℂ) := by
      rw [hM1, smul_one_eq_diagonal]
      simp
    obtain ⟨w, _, h1, h2⟩ := omega_blocks_shifted hchol heig hsort hn
      (by rw [hs]; exact Matrix.PosDef.diagonal fun _ => Complex.zero_lt_real.2 (by norm_num)) junk z im
    rw [h2, hlist w _ (by rw [h1, hs, hroots]), round8_small (by norm_num [abs_of_pos]), round8_small (by simp)]
  · have hp : (-M).PosDef := by
      rw [hM1, diagonal_neg]
      exact Matrix.PosDef.diagonal fun _ => by
        have := Complex.zero_lt_real.2 (neg_pos.2 hx)
        rwa [Complex.ofReal_neg] at this
    obtain ⟨w, _, h1, h2⟩ := omega_blocks_neg hchol heig hsort hp (by norm_num) junk z im
    rw [h2]
    refine hlist w x ?_
    have hm : (-M) = diagonal fun _ => ((-x : ℝ) : ℂ) := by
      rw [hM1, diagonal_neg]
      congr 1; funext; simp
    rw [hm, hroots] at h1
    have h3 : ({((-w 0 : ℝ) : ℂ)} : Multiset ℂ) = {((-x : ℝ) : ℂ)} := h1
    rw [Multiset.singleton_inj, Complex.ofReal_inj, neg_inj] at h3
    rw [← h3]
    rfl

/-! ### Two modes, reported -/

section two

variable {α : Type*} {a : Fin N → α} {x y : α} {A : α → ℝ} {T : α → α → ℂ} {D : Mat N}

theorem TwoMode.isHermitian (h : TwoMode D a x y A T) : D.IsHermitian := by
  ext i j
  rw [conjTranspose_apply]
  rcases i with i | i <;> rcases j with j | j
  · rw [h.inl, h.inl]
    by_cases e : i = j
    · subst e; simp
    · rw [if_neg e, if_neg (Ne.symm e), star_zero]
  · rw [h.up, h.down]
    by_cases e : i = j
    · subst e; simp
    · rw [if_neg e, if_neg (Ne.symm e), star_star]
  · rw [h.up, h.down]
    by_cases e : i = j
    · subst e; simp
    · rw [if_neg e, if_neg (Ne.symm e)]
  · rw [h.inr, h.inr]
    by_cases e : i = j
    · subst e; simp
    · rw [if_neg e, if_neg (Ne.symm e), star_zero]

theorem TwoMode.shift (h : TwoMode D a x y A T) :
    TwoMode (D + diagonal fun _ => 1 / 10 ^ 8) a x y (fun u => A u + 1 / 10 ^ 8) T := by
  refine ⟨h.atoms, fun i j => ?_, fun i j => ?_, fun i j => ?_, fun i j => ?_, h.norm⟩
  · rw [Matrix.add_apply, h.inl]
    by_cases e : i = j
    · subst e; simp
    · simp [e]
  · rw [Matrix.add_apply, h.inr]
    by_cases e : i = j
    · subst e; simp
    · simp [e]
  · simp [h.up]
  · simp [h.down]

theorem TwoMode.neg (h : TwoMode D a x y A T) : TwoMode (-D) a x y (fun u => -A u) fun u v => -T u v := by
  refine ⟨h.atoms, fun i j => ?_, fun i j => ?_, fun i j => ?_, fun i j => ?_, by simpa using h.norm⟩
  all_goals rw [Matrix.neg_apply]
  · rw [h.inl]; split_ifs <;> simp
  · rw [h.inr]; split_ifs <;> simp
  · rw [h.up]; split_ifs <;> simp
  · rw [h.down]; split_ifs <;> simp

theorem energyArray_list {E : Fin N ⊕ Fin N → ℂ} {l : List ℂ} (h : ((List.finRange N).map fun i => E (.inl i)) = l) :
    energyArray E false = l.map fun e => some (round8 e) := by
  rw [← h]
  simp [energyArray, Function.comp_def]

theorem TwoMode.omega_pos (hchol : IsCholesky chol) (heig : IsEig eig) (hsort : IsSort sort) (h : TwoMode D a x y A T)
    (hp : 0 < A x ∧ normSq (T x y) < A x * A y) (junk : Mat N) (z im : Bool) :
    (omegaOf (Colpa.solve chol eig sort) junk z false im D).1 =
      [some (round8 ((Real.sqrt (((A x + A y) / 2) ^ 2 - normSq (T x y)) + |A x - A y| / 2 : ℝ) : ℂ)),
       some (round8 ((Real.sqrt (((A x + A y) / 2) ^ 2 - normSq (T x y)) - |A x - A y| / 2 : ℝ) : ℂ))] := by
  have hD := h.posDef_iff.2 hp
  obtain ⟨E, G, h1, h2⟩ := h.solve hchol heig hsort hD
  obtain ⟨E', G', h5, h6⟩ := C43_positive hchol heig hsort _ junk hD z false im
  rw [h1] at h5
  simp only [Option.some.injEq, Prod.mk.injEq] at h5
  obtain ⟨rfl, rfl⟩ := h5
  rw [h6, energyArray_list h2]
  rfl

theorem TwoMode.omega_shifted (hchol : IsCholesky chol) (heig : IsEig eig) (hsort : IsSort sort) (h : TwoMode D a x y A T)
    (hn : ¬ (0 < A x ∧ normSq (T x y) < A x * A y))
    (hp : 0 < A x + 1 / 10 ^ 8 ∧ normSq (T x y) < (A x + 1 / 10 ^ 8) * (A y + 1 / 10 ^ 8)) (junk : Mat N) (z im : Bool) :
    (omegaOf (Colpa.solve chol eig sort) junk z false im D).1 =
      [some (round8 ((Real.sqrt (((A x + A y) / 2 + 1 / 10 ^ 8) ^ 2 - normSq (T x y)) + |A x - A y| / 2 : ℝ) : ℂ)),
       some (round8 ((Real.sqrt (((A x + A y) / 2 + 1 / 10 ^ 8) ^ 2 - normSq (T x y)) - |A x - A y| / 2 : ℝ) : ℂ))] := by
  have hD := h.shift.posDef_iff.2 hp
  obtain ⟨E, G, h1, h2⟩ := h.shift.solve hchol heig hsort hD
  obtain ⟨E', G', h5, h6⟩ := Magnopy.omega_shifted hchol heig hsort _ junk (fun e => hn (h.posDef_iff.1 e)) hD z false im
  rw [h1] at h5
  simp only [Option.some.injEq, Prod.mk.injEq] at h5
  obtain ⟨rfl, rfl⟩ := h5
  rw [h6, energyArray_list h2]
  rw [show (A x + 1 / 10 ^ 8 + (A y + 1 / 10 ^ 8)) / 2 = (A x + A y) / 2 + 1 / 10 ^ 8 by ring,
    show A x + 1 / 10 ^ 8 - (A y + 1 / 10 ^ 8) = A x - A y by ring]
  rfl

theorem TwoMode.omega_neg (hchol : IsCholesky chol) (heig : IsEig eig) (hsort : IsSort sort) (h : TwoMode D a x y A T)
    (hp : A x < 0 ∧ normSq (T x y) < A x * A y) (junk : Mat N) (z im : Bool) :
    (omegaOf (Colpa.solve chol eig sort) junk z false im D).1 =
      [some (round8 ((-(Real.sqrt (((A x + A y) / 2) ^ 2 - normSq (T x y)) + |A x - A y| / 2) : ℝ) : ℂ)),
       some (round8 ((-(Real.sqrt (((A x + A y) / 2) ^ 2 - normSq (T x y)) - |A x - A y| / 2) : ℝ) : ℂ))] := by
  have hD := h.neg.posDef_iff.2 ⟨by linarith [hp.1], by rw [normSq_neg, neg_mul_neg]; exact hp.2⟩
  obtain ⟨E, G, h1, h2⟩ := h.neg.solve hchol heig hsort hD
  obtain ⟨E', G', h5, h6⟩ := C43_negative hchol heig hsort _ junk hD (by rw [h.size]; norm_num) z false im
  rw [h1] at h5
  simp only [Option.some.injEq, Prod.mk.injEq] at h5
  obtain ⟨rfl, rfl⟩ := h5
  rw [h6]
  have h3 : ((List.finRange N).map fun i => (-E) (.inl i)) = ((List.finRange N).map fun i => E (.inl i)).map fun e => -e := by
    simp [Function.comp_def]
  rw [energyArray_list (h3.trans (congrArg _ h2))]
  rw [normSq_neg, show ((-A x + -A y) / 2) ^ 2 = ((A x + A y) / 2) ^ 2 by ring, show -A x - -A y = -(A x - A y) by ring, abs_neg]
  simp

theorem TwoMode.omega_none (hchol : IsCholesky chol) (h : TwoMode D a x y A T)
    (h1 : ¬ (0 < A x + 1 / 10 ^ 8 ∧ normSq (T x y) < (A x + 1 / 10 ^ 8) * (A y + 1 / 10 ^ 8)))
    (h2 : ¬ (A x < 0 ∧ normSq (T x y) < A x * A y)) (junk : Mat N) (z im : Bool) :
    (omegaOf (Colpa.solve chol eig sort) junk z false im D).1 = List.replicate 2 (if z then none else some 0) := by
  rw [C43_fallback hchol _ junk h.isHermitian (fun e => h1 (h.shift.posDef_iff.1 e)) (fun e => h2 ?_)]
  · rw [h.size]
    cases z <;> simp
  · have := h.neg.posDef_iff.1 e
    rw [normSq_neg, neg_mul_neg] at this
    exact ⟨by linarith [this.1], this.2⟩

end two

end Magnopy
