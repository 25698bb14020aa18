import Verif.Lemmas.Goldstone

/-!
# Helper lemmas: collinear states
-/

set_option autoImplicit false
set_option linter.unusedSectionVars false

namespace Magnopy

open PyDict Matrix Complex MagnonObj ComplexOrder Magnopy.Frame

/-! ### Frames of opposite vectors -/

theorem normalize_scaled {x : ℝ} (hx : 0 < x) {d : V3 ℝ} (hd : IsUnit3 d) : EnergyObj.normalize (x • d) = d := by
  have h1 : EnergyObj.norm3 d = 1 := by
    have := norm3_sq d
    rw [show d ⬝ᵥ d = 1 from hd] at this
    have h0 : 0 ≤ EnergyObj.norm3 d := Real.sqrt_nonneg _
    nlinarith
  rw [normalize_eq, norm3_smul hx, h1, mul_one, smul_smul, inv_mul_cancel₀ hx.ne', one_smul]

theorem span_congr {v w : V3 ℝ} (h : EnergyObj.normalize v = EnergyObj.normalize w) : span v = span w := by
  unfold span
  rw [h]

theorem isUnit3_neg {d : V3 ℝ} (hd : IsUnit3 d) : IsUnit3 (-d) := by
  unfold IsUnit3 at *
  rw [neg_dotProduct_neg]; exact hd

theorem isUnit3_ne_zero {d : V3 ℝ} (hd : IsUnit3 d) : d ≠ 0 := by
  rintro rfl
  simp [IsUnit3] at hd

/-- The third vectors of the frames of opposite vectors are opposite. -/
theorem span_neg {d : V3 ℝ} (hd : IsUnit3 d) : span (-d) 2 = -span d 2 := by
  have hn : ∀ {e : V3 ℝ}, IsUnit3 e → EnergyObj.normalize e = e := fun {e} he => by
    have := normalize_scaled one_pos he
    rwa [one_smul] at this
  by_cases hc : |d 0| ≤ 1 / 10 ^ 8 ∧ |d 1| ≤ 1 / 10 ^ 8
  · have hu : d 0 ^ 2 + d 1 ^ 2 + d 2 ^ 2 = 1 := by
      have := hd
      simp only [IsUnit3, dotProduct, Fin.sum_univ_three] at this
      linear_combination this
    have key : ∀ e : V3 ℝ, IsUnit3 e → |e 0| ≤ 1 / 10 ^ 8 → |e 1| ≤ 1 / 10 ^ 8 → 0 ≤ e 2 →
        e 0 ^ 2 + e 1 ^ 2 + e 2 ^ 2 = 1 → span e 2 = ![0, 0, 1] ∧ span (-e) 2 = ![0, 0, -1] := by
      intro e he h0 h1 h2 heu
      have h3 := third_close heu h0 h1 h2
      have a1 : AllClose e ![0, 0, 1] := (allClose_iff (by simp)).2 ⟨h0, h1, h3.trans (by norm_num)⟩
      have a2 : AllClose (-e) ![0, 0, -1] := by
        refine (allClose_iff (by simp)).2 ⟨by simpa using h0, by simpa using h1, ?_⟩
        have : (-e) 2 - -1 = -(e 2 - 1) := by simp; ring
        rw [this, abs_neg]; exact h3.trans (by norm_num)
      have a3 : ¬ AllClose (-e) ![0, 0, 1] := by
        intro h
        have := ((allClose_iff (by simp)).1 h).2.2
        have h4 := (abs_le.1 this).1
        simp only [Pi.neg_apply] at h4
        norm_num at h4
        linarith
      constructor
      · unfold span
        rw [hn he]
        simp only []
        rw [if_pos a1]; rfl
      · unfold span
        rw [hn (isUnit3_neg he)]
        simp only []
        rw [if_neg a3, if_pos a2]; rfl
    rcases le_total 0 (d 2) with h2 | h2
    · obtain ⟨e1, e2⟩ := key d hd hc.1 hc.2 h2 hu
      rw [e1, e2]
      ext i; fin_cases i <;> simp
    · obtain ⟨e1, e2⟩ := key (-d) (isUnit3_neg hd) (by simpa using hc.1) (by simpa using hc.2)
        (by simpa using h2) (by simp only [Pi.neg_apply]; linarith)
      rw [neg_neg] at e2
      rw [e1, e2]
      ext i; fin_cases i <;> simp
  · have hbig : 1 / 10 ^ 8 < |d 0| ∨ 1 / 10 ^ 8 < |d 1| := by
      by_contra h
      rw [not_or, not_lt, not_lt] at h
      exact hc h
    have key : ∀ e : V3 ℝ, IsUnit3 e → (1 / 10 ^ 8 < |e 0| ∨ 1 / 10 ^ 8 < |e 1|) → span e 2 = e := by
      intro e he hb
      obtain ⟨_, d', ⟨hd', x, hx, hxe⟩, h3, _⟩ := C42_frame e (isUnit3_ne_zero he)
      have hde : d' = e := by
        have h1 := normalize_scaled hx hd'
        rw [← hxe, hn he] at h1
        exact h1.symm
      rw [hde] at h3
      exact h3 hb
    rw [key d hd hbig, key (-d) (isUnit3_neg hd) (by simpa using hbig)]

theorem span_sign {d : V3 ℝ} (hd : IsUnit3 d) {σ x : ℝ} (hσ : σ = 1 ∨ σ = -1) (hx : 0 < x) :
    span ((σ * x) • d) 2 = σ • span d 2 := by
  have hn : ∀ {e : V3 ℝ}, IsUnit3 e → EnergyObj.normalize e = e := fun {e} he => by
    have := normalize_scaled one_pos he
    rwa [one_smul] at this
  rcases hσ with rfl | rfl
  · rw [one_mul, one_smul, span_congr ((normalize_scaled hx hd).trans (hn hd).symm)]
  · have e : (-1 * x) • d = x • (-d) := by rw [smul_neg, ← neg_smul]; congr 1; ring
    rw [e, span_congr ((normalize_scaled hx (isUnit3_neg hd)).trans (hn (isUnit3_neg hd)).symm), span_neg hd]
    simp

theorem norm3_signed {d : V3 ℝ} (hd : IsUnit3 d) {σ x : ℝ} (hσ : σ = 1 ∨ σ = -1) (hx : 0 < x) :
    EnergyObj.norm3 ((σ * x) • d) = x := by
  have h := norm3_sq ((σ * x) • d)
  rw [smul_dotProduct, dotProduct_smul, show d ⬝ᵥ d = 1 from hd] at h
  have h0 : 0 ≤ EnergyObj.norm3 ((σ * x) • d) := Real.sqrt_nonneg _
  have h1 : EnergyObj.norm3 ((σ * x) • d) ^ 2 = x ^ 2 := by
    rw [h]; rcases hσ with rfl | rfl <;> simp <;> ring
  exact (pow_left_inj₀ h0 hx.le two_ne_zero).1 h1

/-! ### The sign of the form -/

theorem cbil_one (x : ℝ) (u v : V3 ℂ) : cbil u (x • (1 : M3 ℝ)) v = (x : ℂ) * (u ⬝ᵥ v) := by
  have : (x • (1 : M3 ℝ)).map ((↑) : ℝ → ℂ) = (x : ℂ) • (1 : M3 ℂ) := by
    ext i j
    by_cases hij : i = j <;> simp [Matrix.one_apply, hij]
  rw [cbil, this, smul_mulVec, one_mulVec, dotProduct_smul, smul_eq_mul]

theorem cu_star_cu {e : M3 ℝ} (h : RightHanded e) : star (cu e) ⬝ᵥ cu e = 2 ∧ cu e ⬝ᵥ cu e = 0 := by
  have h00 := h.ortho 0 0
  have h11 := h.ortho 1 1
  have h01 := h.ortho 0 1
  simp only [dotProduct, Fin.sum_univ_three] at h00 h11 h01
  have hI : star (I : ℂ) = -I := by rw [RCLike.star_def, Complex.conj_I]
  have hr : ∀ r : ℝ, star (r : ℂ) = (r : ℂ) := fun r => by rw [RCLike.star_def, Complex.conj_ofReal]
  have c00 := congrArg (fun x : ℝ => (x : ℂ)) h00
  have c11 := congrArg (fun x : ℝ => (x : ℂ)) h11
  have c01 := congrArg (fun x : ℝ => (x : ℂ)) h01
  simp at c00 c11 c01
  have hII : (I : ℂ) * I = -1 := Complex.I_mul_I
  constructor
  · simp only [dotProduct, Fin.sum_univ_three, cu, Pi.star_apply, star_add, star_mul', hI, hr]
    linear_combination c00 + c11 - ((e 1 0 : ℂ) * e 1 0 + e 1 1 * e 1 1 + e 1 2 * e 1 2) * hII
  · simp only [dotProduct, Fin.sum_univ_three, cu]
    linear_combination c00 - c11 + ((e 1 0 : ℂ) * e 1 0 + e 1 1 * e 1 1 + e 1 2 * e 1 2) * hII + 2 * I * c01

/-- The length of a transverse vector. -/
theorem spinor_norm {e : M3 ℝ} (h : RightHanded e) (a b : ℂ) :
    star (b • cu e + a • star (cu e)) ⬝ᵥ (b • cu e + a • star (cu e)) = ((2 * (normSq a + normSq b) : ℝ) : ℂ) := by
  obtain ⟨h1, h2⟩ := cu_star_cu h
  have h3 : cu e ⬝ᵥ star (cu e) = 2 := by rw [dotProduct_comm]; exact h1
  have h4 : star (cu e) ⬝ᵥ star (cu e) = 0 := by
    have := congrArg star h2
    simp only [dotProduct, star_sum, star_mul', star_zero, Pi.star_apply] at this ⊢
    exact this
  rw [star_add, star_smul, star_smul, star_star, add_dotProduct, dotProduct_add, dotProduct_add]
  simp only [smul_dotProduct, dotProduct_smul, h1, h2, h3, h4, smul_eq_mul]
  push_cast
  rw [Complex.normSq_eq_conj_mul_self, Complex.normSq_eq_conj_mul_self, ← RCLike.star_def]
  ring

theorem normSq_dot (v : V3 ℂ) : star v ⬝ᵥ v = ((∑ c, normSq (v c) : ℝ) : ℂ) := by
  push_cast
  simp only [dotProduct, Pi.star_apply, RCLike.star_def, Complex.normSq_eq_conj_mul_self]

/-- `|2 Re (z x̄·y)| ≤ |x|² + |y|²`. -/
theorem re_dot_le {z : ℂ} (hz : normSq z = 1) (x y : V3 ℂ) :
    |2 * (z * (star x ⬝ᵥ y)).re| ≤ ∑ c, normSq (x c) + ∑ c, normSq (y c) := by
  have key : ∀ c, |2 * (z * (star (x c) * y c)).re| ≤ normSq (x c) + normSq (y c) := by
    intro c
    have h1 : normSq (z * y c) = normSq (y c) := by rw [normSq_mul, hz, one_mul]
    have h2 : 0 ≤ normSq (x c + z * y c) := normSq_nonneg _
    have h3 : 0 ≤ normSq (x c - z * y c) := normSq_nonneg _
    rw [normSq_add] at h2
    rw [normSq_sub] at h3
    rw [h1] at h2 h3
    have h4 : (x c * (starRingEnd ℂ) (z * y c)).re = (z * (star (x c) * y c)).re := by
      have : z * (star (x c) * y c) = (starRingEnd ℂ) (x c * (starRingEnd ℂ) (z * y c)) := by
        simp only [map_mul, Complex.conj_conj, RCLike.star_def]; ring
      rw [this, Complex.conj_re]
    rw [h4] at h2 h3
    rw [abs_le]; constructor <;> linarith
  have e : 2 * (z * (star x ⬝ᵥ y)).re = ∑ c, 2 * (z * (star (x c) * y c)).re := by
    simp only [dotProduct, Pi.star_apply, Finset.mul_sum, Complex.re_sum]
  rw [e, ← Finset.sum_add_distrib]
  exact (Finset.abs_sum_le_sum_abs _ _).trans (Finset.sum_le_sum fun c _ => key c)

theorem phase_normSq (k d : V3 ℝ) : normSq (phase k d) = 1 := by
  have h : ‖phase k d‖ = 1 := by
    unfold phase
    rw [show -I * ((k ⬝ᵥ d : ℝ) : ℂ) = ((-(k ⬝ᵥ d) : ℝ) : ℂ) * I by push_cast; ring]
    exact Complex.norm_exp_ofReal_mul_I _
  rw [Complex.normSq_eq_norm_sq, h, one_pow]

variable {order : List Atom → List Atom} {lat : M3 ℝ} {pos : Atom → V3 ℝ} {spinVec : Atom → Option (V3 ℝ)}
  {s : St ℝ} {o : MagnonObj} {t : St ℝ} {items : List (Bond × ℕ)}

/-- Every term of the private Hamiltonian is a multiple of the scalar product; it is an on-site term or it favours the
signs `σ`. -/
def Favours (t : St ℝ) (σ : Atom → ℝ) : Prop :=
  ∀ p ∈ likeItems t, ∃ x : ℝ, p.2 = x • 1 ∧ ((∃ a, p.1 = (a, a, (0, 0, 0))) ∨ x * (σ p.1.1 * σ p.1.2.1) ≤ 0)

theorem St.Unfrustrated.favours {Γ : Type*} [AddCommGroup Γ] [Fintype Γ] {spin σ : Atom → ℝ} (hx : s.Unfrustrated σ)
    (hc : s.Complete) (h : St.Renoted Γ spin s t) (hn : t.getNotation = .ok (true, false, 1, 1))
    (hpos : ∀ b m, s.valE b = some m → 0 < spin b.1 ∧ 0 < spin b.2.1) : Favours t σ := by
  intro p hp
  obtain ⟨d, k, e, o, hn', _⟩ := hc
  have hf : ∀ b m, s.valE b = some m → ∃ y : ℝ, 0 ≤ y ∧ bondFactor d k e spin b = y * e := by
    intro b m hb
    obtain ⟨p1, p2⟩ := hpos b m hb
    have hw : ∀ a, 0 < spin a → 0 < weight k spin a := by
      intro a ha
      unfold weight
      split_ifs
      · exact one_pos
      · exact ha
    refine ⟨(if d then 2 else 1) * (weight k spin b.1 * weight k spin b.2.1) / (2 * (spin b.1 * spin b.2.1)), ?_, ?_⟩
    · have h1 := hw _ p1
      have h2 := hw _ p2
      have h3 : (0 : ℝ) ≤ if d then 2 else 1 := by split_ifs <;> norm_num
      positivity
    · unfold bondFactor; ring
  rcases h.like hn hn' hp with ⟨a, m, hm, e0, e1⟩ | ⟨b, m, hm, ⟨e0, e1⟩ | ⟨e0, e1⟩⟩
  · obtain ⟨j, rfl⟩ := hx.sites a m hm
    exact ⟨siteFactor k o spin a * j, by rw [e1, smul_smul], Or.inl ⟨a, e0⟩⟩
  · obtain ⟨j, rfl, hj⟩ := hx.bonds d k e o hn' b m hm
    obtain ⟨y, hy, hb⟩ := hf b _ hm
    refine ⟨bondFactor d k e spin b * j, by rw [e1, smul_smul], Or.inr ?_⟩
    rw [e0, hb, show y * e * j * (σ b.1 * σ b.2.1) = y * (e * j * (σ b.1 * σ b.2.1)) by ring]
    exact mul_nonpos_of_nonneg_of_nonpos hy hj
  · obtain ⟨j, rfl, hj⟩ := hx.bonds d k e o hn' b m hm
    obtain ⟨y, hy, hb⟩ := hf b _ hm
    refine ⟨bondFactor d k e spin b * j, by rw [e1, transpose_smul, transpose_one, smul_smul], Or.inr ?_⟩
    rw [e0, show b.mirror.1 = b.2.1 from rfl, show b.mirror.2.1 = b.1 from rfl, hb,
      show y * e * j * (σ b.2.1 * σ b.1) = y * (e * j * (σ b.1 * σ b.2.1)) by ring]
    exact mul_nonpos_of_nonneg_of_nonpos hy hj

theorem list_sum_re (l : List (Bond × M3 ℝ)) (f : Bond × M3 ℝ → ℂ) : ((l.map f).sum).re = (l.map fun p => (f p).re).sum := by
  induction l with
  | nil => simp
  | cons a l ih => simp only [List.map_cons, List.sum_cons, Complex.add_re, ih]

theorem list_sum_sub (l : List (Bond × M3 ℝ)) (f g : Bond × M3 ℝ → ℝ) :
    (l.map f).sum - (l.map g).sum = (l.map fun p => f p - g p).sum := by
  induction l with
  | nil => simp
  | cons a l ih => simp only [List.map_cons, List.sum_cons, ← ih]; ring

/-- The part of a bond in the quadratic form of a collinear state. -/
noncomputable def bondTerm (lat : M3 ℝ) (pos : Atom → V3 ℝ) (frame : Atom → M3 ℝ) (spin : Atom → ℝ) (k : V3 ℝ)
    (α β : Atom → ℂ) (p : Bond × M3 ℝ) : ℝ :=
  (phase (-k) (vector lat pos p.1) *
    cbil (star (((Real.sqrt (spin p.1.1 / 2) : ℝ) : ℂ) • (β p.1.1 • cu (frame p.1.1) + α p.1.1 • star (cu (frame p.1.1))))) p.2
      (((Real.sqrt (spin p.1.2.1 / 2) : ℝ) : ℂ) • (β p.1.2.1 • cu (frame p.1.2.1) + α p.1.2.1 • star (cu (frame p.1.2.1))))).re -
    ((normSq (α p.1.1) + normSq (β p.1.1)) * spin p.1.2.1 + spin p.1.1 * (normSq (α p.1.2.1) + normSq (β p.1.2.1))) / 2 *
      bilin (frame p.1.1 2) p.2 (frame p.1.2.1 2)

/-- The quadratic form as a sum over bonds. -/
theorem MagnonObj.ObjSpec.form_terms (hI : ObjSpec order lat pos spinVec s o t items) (hs : MagnonObj.Symmetric t)
    {spin : Atom → ℝ}
    (hlen : ∀ a ∈ t.magneticAtoms order, ∀ v, spinVec a = some v → EnergyObj.norm3 v = spin a) (k : V3 ℝ) (α β : Atom → ℂ) :
    let X : Fin o.N ⊕ Fin o.N → ℂ := Sum.elim (fun i => (t.magneticAtoms order)[(i : ℕ)]?.elim 0 α)
      fun i => (t.magneticAtoms order)[(i : ℕ)]?.elim 0 β
    (star X ⬝ᵥ ((o.callH t.cell k).1 *ᵥ X)).re = 2 * ((likeItems t).map
      (bondTerm lat pos (fun a => Frame.span ((spinVec a).getD 0)) spin k α β)).sum := by
  intro X
  have hform := hI.form_like hs hlen k α β
  let frame : Atom → M3 ℝ := fun a => Frame.span ((spinVec a).getD 0)
  let G : Atom → V3 ℂ := fun a => β a • cu (frame a) + α a • star (cu (frame a))
  let F : Atom → V3 ℂ := fun a => ((Real.sqrt (spin a / 2) : ℝ) : ℂ) • G a
  let ν : Atom → ℝ := fun a => normSq (α a) + normSq (β a)
  have hform' : star X ⬝ᵥ ((o.callH t.cell k).1 *ᵥ X) = 2 * ((likeItems t).map fun p => phase (-k) (vector lat pos p.1) *
      cbil (star (F p.1.1)) p.2 (F p.1.2.1)).sum - 2 * ((likeItems t).map fun p => ((ν p.1.1 : ℝ) : ℂ) * spin p.1.2.1 *
      cbil (cvec (frame p.1.1 2)) p.2 (cvec (frame p.1.2.1 2))).sum := by
    refine hform.trans ?_
    simp only [ν, Complex.ofReal_add]
    rfl
  rw [hform', Complex.sub_re]
  have h2 : ∀ z : ℂ, (2 * z).re = 2 * z.re := fun z => by simp
  rw [h2, h2, list_sum_re, list_sum_re]
  -- the second sum, read from both ends
  have hsec : ((likeItems t).map fun p => (((ν p.1.1 : ℝ) : ℂ) * spin p.1.2.1 *
      cbil (cvec (frame p.1.1 2)) p.2 (cvec (frame p.1.2.1 2))).re).sum =
      ((likeItems t).map fun p => (ν p.1.1 * spin p.1.2.1 + spin p.1.1 * ν p.1.2.1) / 2 *
        bilin (frame p.1.1 2) p.2 (frame p.1.2.1 2)).sum := by
    have e1 : ∀ p : Bond × M3 ℝ, (((ν p.1.1 : ℝ) : ℂ) * spin p.1.2.1 *
        cbil (cvec (frame p.1.1 2)) p.2 (cvec (frame p.1.2.1 2))).re =
        ν p.1.1 * spin p.1.2.1 * bilin (frame p.1.1 2) p.2 (frame p.1.2.1 2) := by
      intro p
      rw [← ofReal_bilin, ← Complex.ofReal_mul, ← Complex.ofReal_mul, Complex.ofReal_re]
    simp only [e1]
    have e2 : ((likeItems t).map fun p => ν p.1.1 * spin p.1.2.1 * bilin (frame p.1.1 2) p.2 (frame p.1.2.1 2)).sum =
        ((likeItems t).map fun p => spin p.1.1 * ν p.1.2.1 * bilin (frame p.1.1 2) p.2 (frame p.1.2.1 2)).sum := by
      rw [sum_like hI.inv.nodup hs]
      congr 1
      refine List.map_congr_left fun p _ => ?_
      rw [show p.1.mirror.1 = p.1.2.1 from rfl, show p.1.mirror.2.1 = p.1.1 from rfl, bilin_transpose']
      ring
    have e3 := sum_add_list (likeItems t) (fun p => ν p.1.1 * spin p.1.2.1 * bilin (frame p.1.1 2) p.2 (frame p.1.2.1 2))
      fun p => spin p.1.1 * ν p.1.2.1 * bilin (frame p.1.1 2) p.2 (frame p.1.2.1 2)
    have e4 : ((likeItems t).map fun p => (ν p.1.1 * spin p.1.2.1 + spin p.1.1 * ν p.1.2.1) / 2 *
        bilin (frame p.1.1 2) p.2 (frame p.1.2.1 2)) = (likeItems t).map fun p => (1 / 2 : ℝ) *
        (ν p.1.1 * spin p.1.2.1 * bilin (frame p.1.1 2) p.2 (frame p.1.2.1 2) +
          spin p.1.1 * ν p.1.2.1 * bilin (frame p.1.1 2) p.2 (frame p.1.2.1 2)) :=
      List.map_congr_left fun p _ => by ring
    rw [e4, List.sum_map_mul_left, e3, ← e2]
    ring
  rw [hsec, ← mul_sub, list_sum_sub]
  rfl

/-- Facts about the frames of collinear spins. -/
theorem CollinearSpins.frames {l : List Atom} {spin σ : Atom → ℝ} {d : V3 ℝ} (hcol : CollinearSpins l spinVec spin σ d) :
    (∀ a ∈ l, ∀ v, spinVec a = some v → EnergyObj.norm3 v = spin a) ∧
    (∀ a ∈ l, RightHanded (Frame.span ((spinVec a).getD 0))) ∧
    (∀ a ∈ l, Frame.span ((spinVec a).getD 0) 2 = σ a • span d 2) ∧ span d 2 ⬝ᵥ span d 2 = 1 := by
  refine ⟨?_, ?_, ?_, ?_⟩
  · intro a ha v hv
    rw [hcol.vec a ha] at hv
    cases hv
    exact norm3_signed hcol.unit (hcol.sign a ha) (hcol.pos a ha)
  · intro a ha
    have h0 : (σ a * spin a) • d ≠ 0 := by
      have := norm3_signed hcol.unit (hcol.sign a ha) (hcol.pos a ha)
      intro h
      rw [h] at this
      have h1 := hcol.pos a ha
      rw [← this] at h1
      simp [EnergyObj.norm3] at h1
    simp only [hcol.vec a ha, Option.getD_some]
    exact (C42_frame _ h0).1
  · intro a ha
    simp only [hcol.vec a ha, Option.getD_some]
    exact span_sign hcol.unit (hcol.sign a ha) (hcol.pos a ha)
  · simpa using (C42_frame d (isUnit3_ne_zero hcol.unit)).1.ortho 2 2

/-- In a collinear state every bond that favours the signs has a part that is not negative. -/
theorem MagnonObj.ObjSpec.bondTerm_nonneg (hI : ObjSpec order lat pos spinVec s o t items)
    {spin σ : Atom → ℝ} {d : V3 ℝ} (hcol : CollinearSpins (t.magneticAtoms order) spinVec spin σ d) (hf : Favours t σ)
    (k : V3 ℝ) (α β : Atom → ℂ) {p : Bond × M3 ℝ} (hp : p ∈ likeItems t) :
    0 ≤ bondTerm lat pos (fun a => Frame.span ((spinVec a).getD 0)) spin k α β p := by
  obtain ⟨_, hhand, hthird', hdd⟩ := hcol.frames
  let frame : Atom → M3 ℝ := fun a => Frame.span ((spinVec a).getD 0)
  have hthird : ∀ a ∈ t.magneticAtoms order, frame a 2 = σ a • span d 2 := hthird'
  let G : Atom → V3 ℂ := fun a => β a • cu (frame a) + α a • star (cu (frame a))
  let F : Atom → V3 ℂ := fun a => ((Real.sqrt (spin a / 2) : ℝ) : ℂ) • G a
  let ν : Atom → ℝ := fun a => normSq (α a) + normSq (β a)
  have hG : ∀ a ∈ t.magneticAtoms order, ∑ c, normSq (G a c) = 2 * ν a := by
    intro a ha
    have h1 := spinor_norm (hhand a ha) (α a) (β a)
    rw [normSq_dot] at h1
    exact Complex.ofReal_injective h1
  show 0 ≤ (phase (-k) (vector lat pos p.1) * cbil (star (F p.1.1)) p.2 (F p.1.2.1)).re -
    (ν p.1.1 * spin p.1.2.1 + spin p.1.1 * ν p.1.2.1) / 2 * bilin (frame p.1.1 2) p.2 (frame p.1.2.1 2)
  obtain ⟨ha, hb⟩ := hI.like_atoms hp
  obtain ⟨x, hx, hor⟩ := hf p hp
  have hbil : bilin (frame p.1.1 2) p.2 (frame p.1.2.1 2) = x * (σ p.1.1 * σ p.1.2.1) := by
    rw [bilin_eq, hx, smul_mulVec, one_mulVec, dotProduct_smul, hthird _ ha, hthird _ hb, smul_dotProduct,
      dotProduct_smul, hdd]
    simp only [smul_eq_mul]; ring
  rw [hbil, hx, cbil_one]
  have hsq : ∀ a ∈ t.magneticAtoms order, Real.sqrt (spin a / 2) * Real.sqrt (spin a / 2) = spin a / 2 := fun a ha =>
    Real.mul_self_sqrt (by linarith [hcol.pos a ha])
  rcases hor with ⟨a, hpa⟩ | hneg
  · have hv : vector lat pos p.1 = 0 := by
      rw [hpa]
      funext c
      simp [vector, EnergyObj.lattice, Fin.sum_univ_three]
    rw [hpa] at ha hb ⊢
    have hσ : σ a * σ a = 1 := by rcases hcol.sign a ha with h | h <;> rw [h] <;> norm_num
    have e1 : phase (-k) (vector lat pos (a, a, (0, 0, 0))) = 1 := by rw [← hpa, hv]; simp [phase]
    have e2 : star (F a) ⬝ᵥ F a = ((spin a * ν a : ℝ) : ℂ) := by
      have hr : star (((Real.sqrt (spin a / 2) : ℝ) : ℂ)) = ((Real.sqrt (spin a / 2) : ℝ) : ℂ) := by
        rw [RCLike.star_def, Complex.conj_ofReal]
      simp only [F]
      rw [star_smul, hr, smul_dotProduct, dotProduct_smul, normSq_dot, hG a ha, smul_eq_mul, smul_eq_mul, ← mul_assoc,
        ← Complex.ofReal_mul, hsq a ha]
      push_cast; ring
    rw [e1, e2, one_mul, ← Complex.ofReal_mul, Complex.ofReal_re, hσ]
    apply le_of_eq
    ring
  · -- the bond
    have hstar : ∀ r : ℝ, star (r : ℂ) = (r : ℂ) := fun r => by rw [RCLike.star_def, Complex.conj_ofReal]
    set ra := Real.sqrt (spin p.1.1 / 2) with hra
    set rb := Real.sqrt (spin p.1.2.1 / 2) with hrb
    have hle := re_dot_le (phase_normSq (-k) (vector lat pos p.1)) ((rb : ℂ) • G p.1.1) ((ra : ℂ) • G p.1.2.1)
    have n1 : ∑ c, normSq (((rb : ℂ) • G p.1.1) c) = spin p.1.2.1 * ν p.1.1 := by
      simp only [Pi.smul_apply, smul_eq_mul, normSq_mul, Complex.normSq_ofReal]
      rw [← Finset.mul_sum, hG _ ha, hsq _ hb]; ring
    have n2 : ∑ c, normSq (((ra : ℂ) • G p.1.2.1) c) = spin p.1.1 * ν p.1.2.1 := by
      simp only [Pi.smul_apply, smul_eq_mul, normSq_mul, Complex.normSq_ofReal]
      rw [← Finset.mul_sum, hG _ hb, hsq _ ha]; ring
    rw [n1, n2] at hle
    have hd : star ((rb : ℂ) • G p.1.1) ⬝ᵥ ((ra : ℂ) • G p.1.2.1) = star (F p.1.1) ⬝ᵥ F p.1.2.1 := by
      simp only [F]
      rw [star_smul, star_smul, hstar, hstar, smul_dotProduct, smul_dotProduct, dotProduct_smul, dotProduct_smul]
      simp only [smul_eq_mul, ← hra, ← hrb]; ring
    rw [hd] at hle
    have hre : (phase (-k) (vector lat pos p.1) * ((x : ℂ) * (star (F p.1.1) ⬝ᵥ F p.1.2.1))).re =
        x * (phase (-k) (vector lat pos p.1) * (star (F p.1.1) ⬝ᵥ F p.1.2.1)).re := by
      rw [show phase (-k) (vector lat pos p.1) * ((x : ℂ) * (star (F p.1.1) ⬝ᵥ F p.1.2.1)) =
        (x : ℂ) * (phase (-k) (vector lat pos p.1) * (star (F p.1.1) ⬝ᵥ F p.1.2.1)) by ring, Complex.re_ofReal_mul]
    rw [hre]
    set ρ := (phase (-k) (vector lat pos p.1) * (star (F p.1.1) ⬝ᵥ F p.1.2.1)).re
    obtain ⟨l1, l2⟩ := abs_le.1 hle
    have hσ : x * (σ p.1.1 * σ p.1.2.1) = -|x| := by
      have h1 : σ p.1.1 * σ p.1.2.1 = 1 ∨ σ p.1.1 * σ p.1.2.1 = -1 := by
        rcases hcol.sign _ ha with h | h <;> rcases hcol.sign _ hb with h' | h' <;> rw [h, h'] <;> norm_num
      rcases h1 with h1 | h1
      · rw [h1, mul_one] at hneg ⊢
        rw [abs_of_nonpos hneg, neg_neg]
      · rw [h1] at hneg ⊢
        rw [abs_of_nonneg (by linarith)]; ring
    rw [hσ]
    have hx0 : -|x| * |ρ| ≤ x * ρ := by
      have := neg_abs_le (x * ρ)
      rw [abs_mul] at this
      linarith
    have hρ : |ρ| ≤ (ν p.1.1 * spin p.1.2.1 + spin p.1.1 * ν p.1.2.1) / 2 := by
      rw [abs_le]; constructor <;> linarith
    have := mul_le_mul_of_nonneg_left hρ (abs_nonneg x)
    linarith

/-- The form of a collinear state whose signs are favoured by all bonds is not negative. -/
theorem MagnonObj.ObjSpec.form_nonneg (hI : ObjSpec order lat pos spinVec s o t items) (hs : MagnonObj.Symmetric t)
    {spin σ : Atom → ℝ} {d : V3 ℝ} (hcol : CollinearSpins (t.magneticAtoms order) spinVec spin σ d) (hf : Favours t σ)
    (k : V3 ℝ) (α β : Atom → ℂ) :
    let X : Fin o.N ⊕ Fin o.N → ℂ := Sum.elim (fun i => (t.magneticAtoms order)[(i : ℕ)]?.elim 0 α)
      fun i => (t.magneticAtoms order)[(i : ℕ)]?.elim 0 β
    0 ≤ (star X ⬝ᵥ ((o.callH t.cell k).1 *ᵥ X)).re := by
  intro X
  have := hI.form_terms hs hcol.frames.1 k α β
  simp only [] at this
  rw [this]
  refine mul_nonneg zero_le_two (List.sum_nonneg ?_)
  intro y hy
  obtain ⟨p, hp, rfl⟩ := List.mem_map.1 hy
  exact hI.bondTerm_nonneg hcol hf k α β hp

/-! ### Zero modes without creation operators -/

/-- The other two cross products of a frame. -/
theorem RightHanded.cycle {e : M3 ℝ} (h : RightHanded e) :
    crossProduct (e 2) (e 0) = e 1 ∧ crossProduct (e 1) (e 2) = e 0 := by
  have h00 := h.ortho 0 0
  have h11 := h.ortho 1 1
  have h01 := h.ortho 0 1
  have hz := fun i => congrFun h.hand i
  have z0 := hz 0
  have z1 := hz 1
  have z2 := hz 2
  simp [dotProduct, Fin.sum_univ_three] at h00 h11 h01
  simp [cross_apply] at z0 z1 z2
  constructor
  · funext c
    fin_cases c <;> simp [cross_apply, ← z0, ← z1, ← z2]
    · linear_combination e 1 0 * h00 - e 0 0 * h01
    · linear_combination e 1 1 * h00 - e 0 1 * h01
    · linear_combination e 1 2 * h00 - e 0 2 * h01
  · funext c
    fin_cases c <;> simp [cross_apply, ← z0, ← z1, ← z2]
    · linear_combination e 0 0 * h11 - e 1 0 * h01
    · linear_combination e 0 1 * h11 - e 1 1 * h01
    · linear_combination e 0 2 * h11 - e 1 2 * h01

/-- Circular vectors of opposite spins are orthogonal. -/
theorem cu_opposite {e f : M3 ℝ} (he : RightHanded e) (hf : RightHanded f) (h : f 2 = -e 2) :
    cu e ⬝ᵥ star (cu f) = 0 := by
  have hI : star (I : ℂ) = -I := by rw [RCLike.star_def, Complex.conj_I]
  have hr : ∀ r : ℝ, star (r : ℂ) = (r : ℂ) := fun r => by rw [RCLike.star_def, Complex.conj_ofReal]
  have hII : (I : ℂ) * I = -1 := Complex.I_mul_I
  have hf1 : f 1 = -crossProduct (e 2) (f 0) := by rw [← hf.cycle.1, h, map_neg, LinearMap.neg_apply]
  have k1 : e 1 ⬝ᵥ f 1 = -(e 0 ⬝ᵥ f 0) := by
    rw [hf1, dotProduct_neg, triple_product_permutation, triple_product_permutation, he.cycle.2, dotProduct_comm]
  have k2 : e 0 ⬝ᵥ f 1 = e 1 ⬝ᵥ f 0 := by
    rw [hf1, dotProduct_neg, triple_product_permutation, triple_product_permutation, ← cross_anticomm, he.cycle.1,
      dotProduct_neg, neg_neg, dotProduct_comm]
  have c1 := congrArg (fun x : ℝ => (x : ℂ)) k1
  have c2 := congrArg (fun x : ℝ => (x : ℂ)) k2
  simp only [dotProduct, Fin.sum_univ_three] at c1 c2
  push_cast at c1 c2
  simp only [dotProduct, Fin.sum_univ_three, cu, Pi.star_apply, star_add, star_mul', hI, hr]
  linear_combination c1 - I * c2 - ((e 1 0 : ℂ) * f 1 0 + e 1 1 * f 1 1 + e 1 2 * f 1 2) * hII

/-- The part of a bond for `k = 0` and amplitudes without creation operators. -/
theorem bondTerm_zero {l : List Atom} {spin σ : Atom → ℝ} {d : V3 ℝ} (hcol : CollinearSpins l spinVec spin σ d)
    (α : Atom → ℂ) {p : Bond × M3 ℝ} (ha : p.1.1 ∈ l) (hb : p.1.2.1 ∈ l) {x : ℝ} (hx : p.2 = x • 1) :
    bondTerm lat pos (fun a => Frame.span ((spinVec a).getD 0)) spin 0 α (fun _ => 0) p =
      if σ p.1.1 = σ p.1.2.1 then
        -x * normSq (((Real.sqrt (spin p.1.2.1 / 2) : ℝ) : ℂ) * α p.1.1 - ((Real.sqrt (spin p.1.1 / 2) : ℝ) : ℂ) * α p.1.2.1)
      else x * (spin p.1.2.1 / 2 * normSq (α p.1.1) + spin p.1.1 / 2 * normSq (α p.1.2.1)) := by
  obtain ⟨_, hhand, hthird, hdd⟩ := hcol.frames
  have hsq : ∀ a ∈ l, Real.sqrt (spin a / 2) * Real.sqrt (spin a / 2) = spin a / 2 := fun a ha =>
    Real.mul_self_sqrt (by linarith [hcol.pos a ha])
  obtain ⟨b, m⟩ := p
  obtain ⟨a, a', R⟩ := b
  simp only at ha hb hx ⊢
  have hph : phase (-0) (vector lat pos (a, a', R)) = 1 := by simp [phase]
  have hbil : bilin (Frame.span ((spinVec a).getD 0) 2) m (Frame.span ((spinVec a').getD 0) 2) = x * (σ a * σ a') := by
    rw [bilin_eq, hx, smul_mulVec, one_mulVec, dotProduct_smul, hthird _ ha, hthird _ hb, smul_dotProduct,
      dotProduct_smul, hdd]
    simp only [smul_eq_mul]; ring
  have hstar : ∀ r : ℝ, star (r : ℂ) = (r : ℂ) := fun r => by rw [RCLike.star_def, Complex.conj_ofReal]
  unfold bondTerm
  simp only [zero_smul, zero_add, map_zero, add_zero]
  rw [hph, one_mul, hx, cbil_one, ← hx, hbil, star_smul, star_smul, star_star, hstar, smul_dotProduct, smul_dotProduct,
    dotProduct_smul, dotProduct_smul]
  simp only [smul_eq_mul]
  set ra := Real.sqrt (spin a / 2) with hra
  set rb := Real.sqrt (spin a' / 2) with hrb
  have h1 := hsq a ha
  have h2 := hsq a' hb
  rw [← hra] at h1
  rw [← hrb] at h2
  by_cases hσ : σ a = σ a'
  · rw [if_pos hσ]
    have hfr : Frame.span ((spinVec a').getD 0) = Frame.span ((spinVec a).getD 0) := by
      rw [hcol.vec a ha, hcol.vec a' hb, Option.getD_some, Option.getD_some]
      refine span_congr ?_
      have : ∀ x, 0 < x → EnergyObj.normalize ((σ a * x) • d) = σ a • d := by
        intro x hx
        have hu : IsUnit3 (σ a • d) := by
          rcases hcol.sign a ha with h | h <;> rw [h]
          · rw [one_smul]; exact hcol.unit
          · rw [neg_one_smul]; exact isUnit3_neg hcol.unit
        have := normalize_scaled hx hu
        rwa [smul_smul, mul_comm] at this
      rw [← hσ, this _ (hcol.pos _ ha), this _ (hcol.pos _ hb)]
    have hs1 : σ a * σ a' = 1 := by rw [← hσ]; rcases hcol.sign a ha with h | h <;> rw [h] <;> norm_num
    have hu : cu (Frame.span ((spinVec a).getD 0)) ⬝ᵥ star (cu (Frame.span ((spinVec a).getD 0))) = 2 := by
      rw [dotProduct_comm]; exact (cu_star_cu (hhand a ha)).1
    rw [hfr, hu, hs1, normSq_sub, normSq_mul, normSq_mul, Complex.normSq_ofReal, Complex.normSq_ofReal]
    have e1 : (↑x * (↑ra * (star (α a) * (↑rb * (α a' * 2)))) : ℂ).re = 2 * x * (ra * rb * (star (α a) * α a').re) := by
      rw [show (↑x * (↑ra * (star (α a) * (↑rb * (α a' * 2)))) : ℂ) = ((2 * x * (ra * rb) : ℝ) : ℂ) * (star (α a) * α a') by
        push_cast; ring, Complex.re_ofReal_mul]; ring
    have e2 : (↑rb * α a * (starRingEnd ℂ) (↑ra * α a') : ℂ).re = ra * rb * (star (α a) * α a').re := by
      have : (↑rb * α a * (starRingEnd ℂ) (↑ra * α a') : ℂ) = ((ra * rb : ℝ) : ℂ) * (starRingEnd ℂ) (star (α a) * α a') := by
        simp only [map_mul, Complex.conj_ofReal, RCLike.star_def, Complex.conj_conj]
        push_cast; ring
      rw [this, Complex.re_ofReal_mul, Complex.conj_re]
    rw [e1, e2]
    linear_combination x * normSq (α a) * h2 + x * normSq (α a') * h1
  · rw [if_neg hσ]
    have hs1 : σ a' = -σ a := by
      rcases hcol.sign a ha with h | h <;> rcases hcol.sign a' hb with h' | h'
      · exact absurd (h.trans h'.symm) hσ
      · rw [h, h']
      · rw [h, h', neg_neg]
      · exact absurd (h.trans h'.symm) hσ
    have hs2 : σ a * σ a' = -1 := by
      rw [hs1]; rcases hcol.sign a ha with h | h <;> rw [h] <;> norm_num
    have hu := cu_opposite (hhand a ha) (hhand a' hb) (by rw [hthird _ ha, hthird _ hb, hs1, neg_smul])
    rw [hu, hs2]
    simp only [mul_zero, Complex.zero_re]
    ring

/-- Every bond of the user is a bond of the private Hamiltonian. -/
theorem St.Renoted.exists_like {Γ : Type*} [AddCommGroup Γ] [Fintype Γ] {spin : Atom → ℝ} (h : St.Renoted Γ spin s t)
    (hs : s.Paired) (hn : t.getNotation = .ok (true, false, 1, 1)) {d n : Bool} {e o : ℝ}
    (hn' : s.getNotation = .ok (d, n, e, o)) (he : e ≠ 0) (hsp : ∀ a ∈ s.atoms, spin a ≠ 0) {b : Bond} {m : M3 ℝ}
    (hb : s.valE b = some m) (hm : m ≠ 0) : ∃ p ∈ likeItems t, (p.1 = b ∨ p.1 = b.mirror) ∧ p.2 ≠ 0 := by
  have key : ∀ (b : Bond) (m : M3 ℝ), s.oneE b = some m → m ≠ 0 → St.keeps b = true → ∃ p ∈ likeItems t, p.1 = b ∧ p.2 ≠ 0 := by
    intro b m hb hm hk
    obtain ⟨a1, a2⟩ : b.1 ∈ s.atoms ∧ b.2.1 ∈ s.atoms := by
      rcases St.isSome_oneE_iff.1 (show (s.oneE b).isSome by rw [hb]; rfl) with hm | hm
      · exact hs.refer.exch b hm
      · exact (hs.refer.exch _ hm).symm
    have h1 := h.pairE b
    rw [St.pairE_eq h.wf hn, St.pairE_one hn', if_pos hk, if_pos hk, hb, Option.map_some] at h1
    obtain ⟨M, hM, e1⟩ := Option.map_eq_some_iff.1 h1
    have hw : ∀ a, spin a ≠ 0 → weight n spin a ≠ 0 := by
      intro a ha
      unfold weight
      split_ifs
      · exact one_ne_zero
      · exact ha
    have hM0 : M ≠ 0 := by
      rintro rfl
      rw [smul_zero] at e1
      rcases smul_eq_zero.1 e1.symm with h2 | h2
      · have h3 : (if d then 2 else 1 : ℝ) ≠ 0 := by split_ifs <;> norm_num
        exact mul_ne_zero (mul_ne_zero h3 he) (mul_ne_zero (hw _ (hsp _ a1)) (hw _ (hsp _ a2))) h2
      · exact hm h2
    obtain ⟨r, hr, e2⟩ := Option.map_eq_some_iff.1 (show (t.exch.get? b).map t.cell = some M from hM)
    refine ⟨(b, M), List.mem_append_right _ (List.mem_map.2 ⟨(b, r), mem_of_get? hr, ?_⟩), rfl, hM0⟩
    rw [e2]
  have hmem : b ∈ s.exch.keys := by rw [← St.isSome_valE_iff, hb]; rfl
  by_cases hk : St.keeps b = true
  · obtain ⟨p, hp, h1, h2⟩ := key b m (St.oneE_of_some hb) hm hk
    exact ⟨p, hp, Or.inl h1, h2⟩
  · have hk' : St.keeps b.mirror = true := by
      rw [hs.keeps_mirror (Or.inl hmem)]
      simpa using hk
    have hb' : s.oneE b.mirror = some mᵀ := by
      rw [hs.oneE_mirror (St.getNotation_ok_iff.1 hn').1, St.oneE_of_some hb]; rfl
    obtain ⟨p, hp, h1, h2⟩ := key _ _ hb' (fun h0 => hm (by rw [← transpose_transpose m, h0, transpose_zero])) hk'
    exact ⟨p, hp, Or.inr h1, h2⟩

theorem total_scalar {σ : Atom → ℝ} (hf : Favours t σ) (a b : Atom) : ∃ r : ℝ, total t a b = r • 1 := by
  unfold total
  unfold Favours at hf
  revert hf
  generalize likeItems t = l
  intro hf
  induction l with
  | nil => exact ⟨0, by simp⟩
  | cons p l ih =>
    obtain ⟨r, hr⟩ := ih fun q hq => hf q (List.mem_cons_of_mem _ hq)
    obtain ⟨x, hx, _⟩ := hf p List.mem_cons_self
    simp only [List.map_cons, List.sum_cons, hr]
    split_ifs
    · exact ⟨x + r, by rw [hx, add_smul]⟩
    · exact ⟨r, by rw [zero_add]⟩

end Magnopy
