import Verif.Lemmas.ParamRounding
import Verif.Props.Param

/-!
# C106: round-off of the parts of a parameter
-/

set_option autoImplicit false
set_option linter.unusedSectionVars false

namespace Magnopy
namespace Param

open EnergyObj Matrix

variable {K : Type*} [Field K] [LinearOrder K] [IsStrictOrderedRing K] {u : K} {fl : K → K} {d : ℕ} {T T' : EnergyObj.Tree (Fin 3)}

theorem size_near (m : M3 K) (i j : Fin 3) : Approx u 0 (m i j) (m i j) (size m i j) := .refl _

theorem gamma_mono (hf : IsRounding fl u) {n k : ℕ} (hnk : n ≤ k) (hk : k * u < 1) : gamma u n ≤ gamma u k := by
  have h : (n : K) * u ≤ k * u := mul_le_mul_of_nonneg_right (by exact_mod_cast hnk) hf.nonneg
  have h0 : 0 ≤ (n : K) * u := mul_nonneg (by positivity) hf.nonneg
  exact div_le_div₀ (by linarith) h (by linarith) (by linarith)

/-- **C106 (parts).** The computed parts differ from the exact ones by at most the bound of Wilkinson times the size of the elements that
enter: two roundings for the symmetric and the antisymmetric part, `d + 3` for `iso` and `d + 5` for `aniso`, where `d` is the depth of the
sum in `np.trace`. -/
theorem C106_parts (hf : IsRounding fl u) (hT : T.leaves = Finset.univ.val ∧ T.depth ≤ d) (hu : (d + 5 : ℕ) * u < 1) (m : M3 K) :
    |isoFl fl T m - iso m| ≤ gamma u (d + 3) * isoSize (size m) ∧
    ∀ i j, |symmFl fl m i j - symmMatrix m i j| ≤ gamma u 2 * symmSize (size m) i j ∧
      |dmiMatrixFl fl m i j - dmiMatrix m i j| ≤ gamma u 2 * symmSize (size m) i j ∧
      |isoMatrixFl fl T m i j - isoMatrix m i j| ≤ gamma u (d + 4) * (if i = j then isoSize (size m) else 0) ∧
      |anisoFl fl T m i j - aniso m i j| ≤ gamma u (d + 5) * anisoSize (size m) i j := by
  have h := size_near (u := u) m
  have hk : ∀ n : ℕ, n ≤ d + 5 → n * u < 1 := fun n hn =>
    lt_of_le_of_lt (mul_le_mul_of_nonneg_right (by exact_mod_cast hn) hf.nonneg) hu
  have e : ∀ {n : ℕ} {x y s : K}, n ≤ d + 5 → Approx u n x y s → |y - x| ≤ gamma u n * s := fun hn h => h.error hf.nonneg hf.lt (hk _ hn)
  refine ⟨e (by omega) ((iso_near hf hT h).mono hf.nonneg hf.lt (by omega) le_rfl), fun i j => ⟨e (by omega) (symm_near hf h i j),
    e (by omega) (asymm_near hf h i j), e (by omega) ((eye_near hf (iso_near hf hT h) i j).mono hf.nonneg hf.lt (by omega) le_rfl),
    e (by omega) ((aniso_near hf hT h i j).mono hf.nonneg hf.lt (by omega) le_rfl)⟩⟩

/-- **C106 (sum).** The three computed parts add up to the matrix up to rounding. -/
theorem C106_sum (hf : IsRounding fl u) (hT : T.leaves = Finset.univ.val ∧ T.depth ≤ d) (hT' : T'.leaves = Finset.univ.val ∧ T'.depth ≤ d)
    (hu : (d + 5 : ℕ) * u < 1) (m : M3 K) (i j : Fin 3) :
    |isoMatrixFl fl T m i j + anisoFl fl T' m i j + dmiMatrixFl fl m i j - m i j| ≤
      gamma u (d + 5) * (|m i j| + |m j i| + if i = j then 2 * isoSize (size m) else 0) := by
  have h := size_near (u := u) m
  have h1 := (eye_near hf (iso_near hf hT h) i j).mono (m := d + 5) hf.nonneg hf.lt (by omega) le_rfl
  have h2 := (aniso_near hf hT' h i j).mono (m := d + 5) hf.nonneg hf.lt (by omega) le_rfl
  have h3 := (asymm_near hf h i j).mono (m := d + 5) hf.nonneg hf.lt (by omega) le_rfl
  have h4 := ((h1.add h2).add h3).error hf.nonneg hf.lt hu
  have e : iso m * eye i j + aniso m i j + asymmMatrix m i j = m i j := by
    simp only [aniso, symmMatrix, asymmMatrix, Matrix.of_apply]; ring
  have e' : (if i = j then isoSize (size m) else 0) + anisoSize (size m) i j + symmSize (size m) i j =
      |m i j| + |m j i| + if i = j then 2 * isoSize (size m) else 0 := by
    simp only [anisoSize, symmSize, size]
    split_ifs <;> ring
  rw [e, e'] at h4
  exact h4

/-- **C106 (symmetry).** Symmetries are exact: the symmetric part and `aniso` are symmetric, `dmi_matrix` is antisymmetric and is the
matrix of the vector `dmi`, and off the diagonal `aniso` is the symmetric part. -/
theorem C106_symmetry (hf : IsFloat fl u) (m : M3 K) :
    (symmFl fl m)ᵀ = symmFl fl m ∧ (anisoFl fl T m)ᵀ = anisoFl fl T m ∧ (dmiMatrixFl fl m)ᵀ = -dmiMatrixFl fl m ∧
    dmiMatrixFl fl m = dmiArray (dmiFl fl m) ∧ ∀ i j, i ≠ j → anisoFl fl T m i j = symmFl fl m i j ∧ isoMatrixFl fl T m i j = 0 := by
  have hs : ∀ i j, symmFl fl m j i = symmFl fl m i j := fun i j => by simp only [symmFl, Matrix.of_apply, add_comm]
  have ha : ∀ i j, asymmFl fl m j i = -asymmFl fl m i j := fun i j => by
    simp only [asymmFl, Matrix.of_apply]
    rw [← neg_sub (m i j), hf.odd, neg_div, hf.odd]
  have hz : ∀ i, asymmFl fl m i i = 0 := fun i => by simp [asymmFl, fl_zero hf.toIsRounding]
  refine ⟨Matrix.ext fun i j => hs i j, Matrix.ext fun i j => ?_, Matrix.ext fun i j => ha i j, ?_, fun i j hij => ⟨?_, ?_⟩⟩
  · simp only [Matrix.transpose_apply, anisoFl, Matrix.of_apply, hs i j, eye, eq_comm]
  · ext i j
    fin_cases i <;> fin_cases j <;> simp [dmiMatrixFl, dmiArray, dmiFl, hz]
    · exact ha 2 0
    · exact ha 0 1
    · exact ha 1 2
  · simp [anisoFl, eye, hij, fl_zero hf.toIsRounding, symmFl, hf.idem]
  · simp [isoMatrixFl, eye, hij, fl_zero hf.toIsRounding]

/-- **C106 (assignment of `iso`).** Afterwards `iso` is the new value and `aniso` the old one up to rounding; elements off the diagonal and
`dmi` are exactly as before. -/
theorem C106_set_iso (hf : IsFloat fl u) (hT : T.leaves = Finset.univ.val ∧ T.depth ≤ d) (hT' : T'.leaves = Finset.univ.val ∧ T'.depth ≤ d)
    (hu : (2 * d + 11 : ℕ) * u < 1) {m : M3 K} (hm : Stored fl m) (v : K) :
    |isoFl fl T' (setIsoFl fl T m v) - v| ≤ gamma u (2 * d + 9) * (|v| + 2 * isoSize (size m)) ∧
    (∀ i j, |anisoFl fl T' (setIsoFl fl T m v) i j - aniso m i j| ≤ gamma u (2 * d + 11) * anisoSize (afterIso m v) i j) ∧
    (∀ i j, i ≠ j → setIsoFl fl T m v i j = m i j) ∧
    dmiFl fl (setIsoFl fl T m v) = dmiFl fl m ∧ dmiMatrixFl fl (setIsoFl fl T m v) = dmiMatrixFl fl m ∧
    Stored fl (setIsoFl fl T m v) := by
  have hr := hf.toIsRounding
  obtain ⟨c1, c2, -⟩ := C02_set_iso m v
  have h := setIso_near hr hT m v
  have hoff : ∀ i j, i ≠ j → setIsoFl fl T m v i j = m i j := fun i j hij => by
    simp [setIsoFl, eye, hij, fl_zero hr, hm i j]
  have ha : asymmFl fl (setIsoFl fl T m v) = asymmFl fl m := by
    ext i j
    by_cases hij : i = j
    · subst hij; simp [asymmFl]
    · simp only [asymmFl, Matrix.of_apply, hoff i j hij, hoff j i (Ne.symm hij)]
  refine ⟨?_, fun i j => ?_, hoff, by simp only [dmiFl, ha], ha, fun i j => by simp only [setIsoFl, Matrix.of_apply, hf.idem]⟩
  · have h1 := ((iso_near hr hT' h).mono (m := 2 * d + 9) hr.nonneg hr.lt (by omega) le_rfl).error hr.nonneg hr.lt
      (lt_of_le_of_lt (mul_le_mul_of_nonneg_right (by exact_mod_cast (by omega : 2 * d + 9 ≤ 2 * d + 11)) hr.nonneg) hu)
    rw [c1] at h1
    refine h1.trans (le_of_eq ?_)
    congr 1
    simp only [isoSize, afterIso, size, if_true]; ring
  · have h1 := ((aniso_near hr hT' h i j).mono (m := 2 * d + 11) hr.nonneg hr.lt (by omega) le_rfl).error hr.nonneg hr.lt hu
    rwa [c2] at h1

/-- **C106 (assignment of `dmi`).** Afterwards `dmi` is the new vector and the symmetric part the old one up to rounding; the diagonal, `iso`
and the diagonal of `aniso` are exactly as before. -/
theorem C106_set_dmi (hf : IsFloat fl u) (hu : (6 : ℕ) * u < 1) {m : M3 K} (hm : Stored fl m) (v : V3 K) :
    (∀ i j, |dmiMatrixFl fl (setDmiFl fl m v) i j - dmiArray v i j| ≤ gamma u 6 * symmSize (afterDmi m v) i j) ∧
    (∀ i j, |symmFl fl (setDmiFl fl m v) i j - symmMatrix m i j| ≤ gamma u 6 * symmSize (afterDmi m v) i j) ∧
    (∀ i, setDmiFl fl m v i i = m i i) ∧ isoFl fl T (setDmiFl fl m v) = isoFl fl T m ∧
    (∀ i, anisoFl fl T (setDmiFl fl m v) i i = anisoFl fl T m i i) ∧ Stored fl (setDmiFl fl m v) := by
  have hr := hf.toIsRounding
  have h := setDmi_near hr m v
  have hd : ∀ i, setDmiFl fl m v i i = m i i := fun i => by
    have : ∀ w : V3 K, dmiArray w i i = 0 := fun w => by fin_cases i <;> simp [dmiArray]
    simp only [setDmiFl, Matrix.of_apply, this, add_zero, hm i i]
  have hs : ∀ i, symmFl fl (setDmiFl fl m v) i i = symmFl fl m i i := fun i => by simp only [symmFl, Matrix.of_apply, hd i]
  have hi : isoFl fl T (setDmiFl fl m v) = isoFl fl T m := by simp only [isoFl, hs]
  refine ⟨fun i j => ?_, fun i j => ?_, hd, hi, fun i => by simp only [anisoFl, Matrix.of_apply, hs, hi],
    fun i j => by simp only [setDmiFl, Matrix.of_apply, hf.idem]⟩
  · have h1 := (asymm_near hr h i j).error hr.nonneg hr.lt hu
    have e : asymmMatrix (setDmi m v) i j = dmiArray v i j := by
      fin_cases i <;> fin_cases j <;> simp [asymmMatrix, setDmi, dmiArray, dmi] <;> ring
    rwa [e] at h1
  · have h1 := (symm_near hr h i j).error hr.nonneg hr.lt hu
    have e : symmMatrix (setDmi m v) i j = symmMatrix m i j := by
      fin_cases i <;> fin_cases j <;> simp [symmMatrix, setDmi, dmiArray] <;> ring
    rwa [e] at h1

/-- **C106 (assignment of `aniso`).** After a symmetric traceless matrix was assigned, `aniso` is that matrix and the other parts are the old
ones up to rounding. -/
theorem C106_set_aniso (hf : IsRounding fl u) (hT : T.leaves = Finset.univ.val ∧ T.depth ≤ d)
    (hT' : T'.leaves = Finset.univ.val ∧ T'.depth ≤ d) (hu : (2 * d + 12 : ℕ) * u < 1) (m a : M3 K) (hs : aᵀ = a) (ht : a.trace = 0) :
    |isoFl fl T' (setAnisoFl fl T m a) - iso m| ≤ gamma u (2 * d + 12) * isoSize (afterAniso m a) ∧
    ∀ i j, |anisoFl fl T' (setAnisoFl fl T m a) i j - a i j| ≤ gamma u (2 * d + 12) * anisoSize (afterAniso m a) i j ∧
      |dmiMatrixFl fl (setAnisoFl fl T m a) i j - dmiMatrix m i j| ≤ gamma u (2 * d + 12) * symmSize (afterAniso m a) i j := by
  obtain ⟨c1, c2, -⟩ := C02_set_aniso m a hs ht
  have h := setAniso_near hf hT m a
  refine ⟨?_, fun i j => ⟨?_, ?_⟩⟩
  · have h1 := ((iso_near hf hT' h).mono (m := 2 * d + 12) hf.nonneg hf.lt (by omega) le_rfl).error hf.nonneg hf.lt hu
    rwa [c2] at h1
  · have h1 := ((aniso_near hf hT' h i j).mono (m := 2 * d + 12) hf.nonneg hf.lt (by omega) le_rfl).error hf.nonneg hf.lt hu
    rwa [c1] at h1
  · have h1 := ((asymm_near hf h i j).mono (m := 2 * d + 12) hf.nonneg hf.lt (by omega) le_rfl).error hf.nonneg hf.lt hu
    have e : asymmMatrix (setAniso m a) i j = asymmMatrix m i j := by
      have h2 : a j i = a i j := congrFun (congrFun hs i) j
      have h3 : aniso m j i = aniso m i j := by simp only [aniso, symmMatrix, Matrix.of_apply, eye, eq_comm, add_comm]
      simp only [asymmMatrix, setAniso, Matrix.of_apply, Matrix.add_apply, Matrix.sub_apply, h2, h3]; ring
    rwa [e] at h1

theorem sum_zero (hf : IsRounding fl u) (T : EnergyObj.Tree (Fin 3)) {f : Fin 3 → K} (h : ∀ i, f i = 0) : T.sum fl f = 0 := by
  induction T with
  | zero => rfl
  | leaf i => exact h i
  | node l r hl hr => simp [EnergyObj.Tree.sum, hl, hr, fl_zero hf]

/-- **C106 (constructor).** `MatrixParameter(iso=v)` stores exactly `v` on the diagonal and zero elsewhere; `MatrixParameter(dmi=D)` stores
exactly the matrix of `D`, and `dmi` reads back exactly `D`. -/
theorem C106_constructor (hf : IsFloat fl u) {v : K} (hv : fl v = v) {D : V3 K} (hD : ∀ c, fl (D c) = D c) :
    setIsoFl fl T 0 v = v • (1 : M3 K) ∧ setDmiFl fl 0 D = dmiArray D ∧ dmiFl fl (setDmiFl fl 0 D) = D := by
  have hr := hf.toIsRounding
  have z := fl_zero hr
  have hi : isoFl fl T (0 : M3 K) = 0 := by
    rw [isoFl, sum_zero hr T fun i => by simp [symmFl, z]]; simp [z]
  have hd : dmiFl fl (0 : M3 K) = 0 := by
    ext c; fin_cases c <;> simp [dmiFl, asymmFl, z]
  have hh : ∀ x, fl x = x → fl (fl (x - -x) / 2) = x := fun x hx => by
    rw [sub_neg_eq_add, ← two_mul, hf.two, hx, mul_div_cancel_left₀ _ two_ne_zero, hx]
  have hn : ∀ c, fl (-D c) = -D c := fun c => by rw [hf.odd, hD]
  have hset : setDmiFl fl 0 D = dmiArray D := by
    ext i j
    fin_cases i <;> fin_cases j <;> simp [setDmiFl, dmiArray, hd, hD, hn, z]
  refine ⟨?_, hset, ?_⟩
  · ext i j
    by_cases hij : i = j
    · subst hij; simp [setIsoFl, hi, eye, hv]
    · simp [setIsoFl, hi, eye, hij, z]
  · rw [hset]
    ext c
    fin_cases c <;> simp [dmiFl, asymmFl, dmiArray] <;> simpa using hh _ (hD _)

/-! ### Floating-point numbers exist -/

section chop

variable {p : ℕ} {x : ℝ}

theorem chop_of (hx : 0 < x) {e : ℤ} (h1 : (2 : ℝ) ^ e ≤ x) (h2 : x < 2 ^ (e + 1)) : chop p x = ⌊x / 2 ^ (e - p)⌋ * 2 ^ (e - p) := by
  have he : Int.log 2 x = e := by
    have a := (Int.zpow_le_iff_le_log (b := 2) (by norm_num) hx).1 (by exact_mod_cast h1)
    have b := (Int.lt_zpow_iff_log_lt (b := 2) (by norm_num) hx).1 (by exact_mod_cast h2)
    omega
  rw [chop, abs_of_pos hx, he, sign_pos hx]
  simp

theorem chop_odd (x : ℝ) : chop p (-x) = -chop p x := by
  rw [chop, chop, abs_neg, Left.sign_neg]; push_cast; ring

theorem chop_zero : chop p 0 = 0 := by simp [chop]

theorem chop_range (hx : 0 < x) {e : ℤ} (h1 : (2 : ℝ) ^ e ≤ x) (h2 : x < 2 ^ (e + 1)) :
    (2 : ℝ) ^ e ≤ chop p x ∧ chop p x ≤ x ∧ x - chop p x ≤ 2 ^ (e - p) := by
  rw [chop_of hx h1 h2]
  have hq : (0 : ℝ) < 2 ^ (e - p) := by positivity
  have hxq : x / 2 ^ (e - p) * 2 ^ (e - p) = x := div_mul_cancel₀ _ hq.ne'
  have hp : (2 : ℝ) ^ e = (2 ^ p : ℕ) * 2 ^ (e - p) := by
    push_cast
    rw [← zpow_natCast, ← zpow_add₀ (by norm_num : (2 : ℝ) ≠ 0)]; congr 1; omega
  refine ⟨?_, ?_, ?_⟩
  · rw [hp]
    refine mul_le_mul_of_nonneg_right ?_ hq.le
    have : ((2 ^ p : ℕ) : ℤ) ≤ ⌊x / 2 ^ (e - p)⌋ := Int.le_floor.2 (by
      rw [le_div_iff₀ hq]; push_cast; rw [← hxq] at h1; push_cast at hp; rw [← hp]; rw [hxq] at h1; exact h1)
    exact_mod_cast this
  · calc _ ≤ x / 2 ^ (e - p) * 2 ^ (e - p) := mul_le_mul_of_nonneg_right (Int.floor_le _) hq.le
      _ = x := hxq
  · have := mul_lt_mul_of_pos_right (Int.lt_floor_add_one (x / 2 ^ (e - p))) hq
    rw [hxq, add_mul, one_mul] at this
    linarith

theorem exists_exponent (hx : 0 < x) : ∃ e : ℤ, (2 : ℝ) ^ e ≤ x ∧ x < 2 ^ (e + 1) :=
  ⟨Int.log 2 x, by exact_mod_cast Int.zpow_log_le_self (by norm_num) hx, by exact_mod_cast Int.lt_zpow_succ_log_self (by norm_num) x⟩

/-- Rounding towards zero is a floating-point arithmetic as required. -/
theorem chop_isFloat (p : ℕ) (hp : 0 < p) : IsFloat (chop p) (1 / 2 ^ p) := by
  have ext : ∀ P : ℝ → Prop, P 0 → (∀ x, P x → P (-x)) → (∀ x, 0 < x → P x) → ∀ x, P x := fun P h0 hn hp x => by
    rcases lt_trichotomy x 0 with h | h | h
    · simpa using hn _ (hp (-x) (neg_pos.2 h))
    · rw [h]; exact h0
    · exact hp x h
  refine ⟨⟨by positivity, ?_, ext _ (by simp [chop_zero]) (fun x h => ?_) fun x hx => ?_⟩, chop_odd,
    ext _ (by simp [chop_zero]) (fun x h => by rw [chop_odd, chop_odd, h]) fun x hx => ?_,
    ext _ (by simp [chop_zero]) (fun x h => by rw [mul_neg, chop_odd, chop_odd, h, mul_neg]) fun x hx => ?_⟩
  · rw [div_lt_one (by positivity)]; exact one_lt_pow₀ (by norm_num) hp.ne'
  · rw [chop_odd, abs_neg, ← neg_sub', abs_neg]; exact h
  · obtain ⟨e, h1, h2⟩ := exists_exponent hx
    obtain ⟨-, a, b⟩ := chop_range (p := p) hx h1 h2
    rw [abs_of_nonpos (by linarith), abs_of_pos hx, neg_sub]
    refine b.trans ?_
    rw [zpow_sub₀ (by norm_num), zpow_natCast, one_div, div_eq_inv_mul]
    exact mul_le_mul_of_nonneg_left h1 (by positivity)
  · obtain ⟨e, h1, h2⟩ := exists_exponent hx
    obtain ⟨a, b, -⟩ := chop_range (p := p) hx h1 h2
    have hc : 0 < chop p x := lt_of_lt_of_le (by positivity) a
    rw [chop_of hc a (b.trans_lt h2), chop_of hx h1 h2, mul_div_cancel_right₀ _ (by positivity), Int.floor_intCast]
  · obtain ⟨e, h1, h2⟩ := exists_exponent hx
    have e1 : (2 : ℝ) ^ (e + 1) = 2 * 2 ^ e := by rw [zpow_add₀ (by norm_num)]; ring
    have e2 : (2 : ℝ) ^ (e + 1 + 1) = 2 * 2 ^ (e + 1) := by rw [zpow_add₀ (by norm_num)]; ring
    have e3 : (2 : ℝ) ^ (e + 1 - p) = 2 * 2 ^ (e - p) := by rw [show e + 1 - (p : ℤ) = (e - p) + 1 by ring, zpow_add₀ (by norm_num)]; ring
    rw [chop_of (by linarith : 0 < 2 * x) (by rw [e1]; linarith) (by rw [e2]; linarith), chop_of hx h1 h2, e3,
      mul_div_mul_left _ _ (by norm_num)]
    ring

end chop

/-- Additions one after the other. -/
theorem trace_complete : (Tree.ofList (List.finRange 3)).leaves = Finset.univ.val ∧ (Tree.ofList (List.finRange 3)).depth ≤ 3 :=
  ⟨(leaves_ofList _).1.trans rfl, by rw [(leaves_ofList _).2]; simp⟩

/-- **C106, what is not exact.** With two binary digits `MatrixParameter(iso=1.5).iso` is 1: `iso` does not always read back exactly what was
assigned, even for a parameter without other parts. -/
theorem C106_iso_exact_false : ∃ (fl : ℝ → ℝ) (u : ℝ), IsFloat fl u ∧ ∃ v, fl v = v ∧
    isoFl fl (.ofList (List.finRange 3)) (setIsoFl fl (.ofList (List.finRange 3)) 0 v) ≠ v := by
  have hf := chop_isFloat 1 (by norm_num)
  have c3 : chop 1 3 = 3 := by
    rw [chop_of (e := 1) (by norm_num) (by norm_num) (by norm_num)]; norm_num
  have c32 : chop 1 (3 / 2) = 3 / 2 := by
    rw [chop_of (e := 0) (by norm_num) (by norm_num) (by norm_num)]; norm_num
  have c92 : chop 1 (9 / 2) = 4 := by
    rw [chop_of (e := 2) (by norm_num) (by norm_num) (by norm_num)]; norm_num
  have c43 : chop 1 (4 / 3) = 1 := by
    rw [chop_of (e := 0) (by norm_num) (by norm_num) (by norm_num)]; norm_num
  refine ⟨_, _, hf, 3 / 2, c32, ?_⟩
  rw [(C106_constructor hf c32 (D := 0) fun _ => chop_zero).1]
  have hs : ∀ i, symmFl (chop 1) ((3 / 2 : ℝ) • (1 : M3 ℝ)) i i = 3 / 2 := fun i => by
    simp only [symmFl, Matrix.of_apply, Matrix.smul_apply, Matrix.one_apply_eq, smul_eq_mul, mul_one]
    rw [show (3 / 2 + 3 / 2 : ℝ) = 3 by norm_num, c3, c32]
  have e1 : (3 / 2 + 3 / 2 : ℝ) = 3 := by norm_num
  have e2 : (3 + 3 / 2 : ℝ) = 9 / 2 := by norm_num
  simp only [isoFl, hs, List.finRange_succ, List.finRange_zero, Tree.ofList, List.map_cons, List.map_nil, List.foldl_cons, List.foldl_nil,
    Tree.sum, zero_add, c32, e1, c3, e2, c92, c43]
  norm_num

namespace RoundingExample

/-- The Hilbert matrix in single precision. -/
noncomputable def hilbert : M3 ℝ := Matrix.of fun i j => chop 23 (1 / (i + j + 1 : ℕ))

theorem hilbert_stored : Stored (chop 23) hilbert := fun i j => (chop_isFloat 23 (by norm_num)).idem _

theorem hilbert_size : isoSize (size hilbert) ≤ 23 / 45 := by
  have h : ∀ n : ℕ, |chop 23 (1 / ((n + 1 : ℕ) : ℝ))| ≤ 1 / ((n + 1 : ℕ) : ℝ) := fun n => by
    have hx : (0 : ℝ) < 1 / ((n + 1 : ℕ) : ℝ) := by positivity
    obtain ⟨e, h1, h2⟩ := exists_exponent hx
    obtain ⟨a, b, -⟩ := chop_range (p := 23) hx h1 h2
    rwa [abs_of_nonneg (le_trans (by positivity) a)]
  have h0 := h 0
  have h2 := h 2
  have h4 := h 4
  norm_num at h0 h2 h4
  simp only [isoSize, size, hilbert, Matrix.of_apply]
  norm_num
  linarith

end RoundingExample

open RoundingExample in
/-- C106: 0.1 is assigned to `iso` of the Hilbert matrix in single precision. -/
example : let m' := setIsoFl (chop 23) (.ofList (List.finRange 3)) hilbert (chop 23 (1 / 10))
    |isoFl (chop 23) (.ofList (List.finRange 3)) m' - chop 23 (1 / 10)| ≤ 1 / 100000 ∧ m' 0 1 = chop 23 (1 / 2) ∧
    dmiFl (chop 23) m' = dmiFl (chop 23) hilbert := by
  intro m'
  have hf := chop_isFloat 23 (by norm_num)
  obtain ⟨a, -, b, c, -⟩ := C106_set_iso hf trace_complete trace_complete (by norm_num) hilbert_stored (chop 23 (1 / 10))
  refine ⟨a.trans ?_, (b 0 1 (by decide)).trans (by simp only [hilbert, Matrix.of_apply]; norm_num), c⟩
  have h1 := hf.close (1 / 10)
  have h2 : |chop 23 (1 / 10)| ≤ 1 := by
    have := abs_le.1 h1
    rw [abs_of_pos (by norm_num : (0 : ℝ) < 1 / 10)] at this
    norm_num at this
    exact abs_le.2 ⟨by norm_num; linarith, by norm_num; linarith⟩
  have h3 := hilbert_size
  have hg : gamma (1 / 2 ^ 23 : ℝ) (2 * 3 + 9) ≤ 1 / 300000 := by norm_num [gamma]
  have h4 : 0 ≤ |chop 23 (1 / 10)| + 2 * isoSize (size hilbert) := by
    simp only [isoSize, size]; positivity
  refine (mul_le_mul_of_nonneg_right hg h4).trans ?_
  linarith

open RoundingExample in
/-- C106: a vector is assigned to `dmi` of the Hilbert matrix in single precision; the parts of the result add up to it within 1/100000 of
its elements. -/
example : let m' := setDmiFl (chop 23) hilbert ![1, 2, 3]
    m' 1 1 = chop 23 (1 / 3) ∧ (symmFl (chop 23) m')ᵀ = symmFl (chop 23) m' ∧
    dmiMatrixFl (chop 23) m' = dmiArray (dmiFl (chop 23) m') ∧
    |isoMatrixFl (chop 23) (.ofList (List.finRange 3)) m' 0 1 + anisoFl (chop 23) (.ofList (List.finRange 3)) m' 0 1 +
      dmiMatrixFl (chop 23) m' 0 1 - m' 0 1| ≤ 1 / 100000 * (|m' 0 1| + |m' 1 0|) := by
  intro m'
  have hf := chop_isFloat 23 (by norm_num)
  obtain ⟨-, -, a, -⟩ := C106_set_dmi (T := .zero) hf (by norm_num) hilbert_stored ![1, 2, 3]
  obtain ⟨b, -, -, c, -⟩ := C106_symmetry (T := .zero) hf m'
  refine ⟨(a 1).trans (by simp only [hilbert, Matrix.of_apply]; norm_num), b, c, ?_⟩
  refine (C106_sum hf.toIsRounding trace_complete trace_complete (by norm_num) m' 0 1).trans ?_
  have hg : gamma (1 / 2 ^ 23 : ℝ) (3 + 5) ≤ 1 / 100000 := by norm_num [gamma]
  rw [if_neg (by decide), add_zero]
  exact mul_le_mul_of_nonneg_right hg (by positivity)

/-- C106: a vector of numbers with two binary digits is read back exactly. -/
example : dmiFl (chop 1) (setDmiFl (chop 1) 0 ![3 / 2, -3, 0]) = ![3 / 2, -3, 0] := by
  have hf := chop_isFloat 1 (by norm_num)
  refine (C106_constructor (T := .zero) hf chop_zero fun c => ?_).2.2
  have c3 : chop 1 3 = 3 := by
    rw [chop_of (e := 1) (by norm_num) (by norm_num) (by norm_num)]; norm_num
  have c32 : chop 1 (3 / 2) = 3 / 2 := by
    rw [chop_of (e := 0) (by norm_num) (by norm_num) (by norm_num)]; norm_num
  fin_cases c
  · exact c32
  · show chop 1 (-3) = -3; rw [chop_odd, c3]
  · exact chop_zero

end Param
end Magnopy
