import Verif.Spec.Fourier
import Verif.Lemmas.DescribeSetup

/-!
# Helper lemmas: the Fourier transform of the parameters in any notation
-/

set_option autoImplicit false
set_option linter.unusedSectionVars false

namespace Magnopy

open PyDict Matrix Complex MagnonObj

namespace St

/-! ### Sums over bonds -/

theorem sum_exchangeItems {X : Type*} [AddCommMonoid X] {s : St ℝ} (hk : s.KeysNodup) (G : Bond → M3 ℝ → X) :
    (s.exchangeItems.map fun p => G p.1 p.2).sum = ∑ b ∈ s.exch.keys.toFinset, G b ((s.valE b).getD 0) := by
  rw [List.sum_toFinset _ hk.exch, exchangeItems, List.map_map, keys, List.map_map]
  congr 1
  refine List.map_congr_left fun p hp => ?_
  have := get?_of_mem hk.exch (k := p.1) (v := p.2) hp
  simp [valE, this]

theorem sum_doubled {X : Type*} [AddCommGroup X] {F : Finset Bond} (hF : ∀ b ∈ F, b.mirror ∈ F)
    (hk : ∀ b ∈ F, keeps b.mirror = !keeps b) (φ : Bond → X) (hφ : ∀ b ∈ F, φ b.mirror = φ b) :
    ∑ b ∈ F, φ b = (∑ b ∈ F with keeps b = true, φ b) + ∑ b ∈ F with keeps b = true, φ b := by
  rw [← Finset.sum_filter_add_sum_filter_not F (fun b => keeps b = true)]
  congr 1
  refine Finset.sum_bij' (fun b _ => b.mirror) (fun b _ => b.mirror) ?_ ?_ ?_ ?_ ?_
  · intro b hb
    rw [Finset.mem_filter] at hb ⊢
    exact ⟨hF b hb.1, by rw [hk b hb.1]; simpa using hb.2⟩
  · intro b hb
    rw [Finset.mem_filter] at hb ⊢
    exact ⟨hF b hb.1, by rw [hk b hb.1]; simpa using hb.2⟩
  · intro b _; exact b.mirror_mirror
  · intro b _; exact b.mirror_mirror
  · intro b hb
    rw [Finset.mem_filter] at hb
    exact (hφ b hb.1).symm

/-- A sum over the stored bonds, weighted with the factors of the notation, is a sum over pairs of atoms. -/
theorem sum_pairs {X : Type*} [AddCommGroup X] [Module ℝ X] {s : St ℝ} (hs : s.Paired) {d n : Bool} {e o : ℝ}
    (hn : s.getNotation = .ok (d, n, e, o)) (spin : Atom → ℝ) (F : Bond → M3 ℝ →ₗ[ℝ] X)
    (hF : ∀ b m, F b.mirror mᵀ = F b m) :
    (s.exchangeItems.map fun p => (e * (weight n spin p.1.1 * weight n spin p.1.2.1)) • F p.1 p.2).sum =
      ∑ b ∈ s.exch.keys.toFinset ∪ s.exch.keys.toFinset.image Bond.mirror with keeps b = true, F b ((s.pairE spin b).getD 0) := by
  have hd := (getNotation_ok_iff.1 hn).1
  have hinj : Function.Injective Bond.mirror := fun a b h => by
    rw [← Bond.mirror_mirror a, h, Bond.mirror_mirror]
  have hU : ∀ b, b ∈ s.exch.keys.toFinset ∪ s.exch.keys.toFinset.image Bond.mirror ↔
      b ∈ s.exch.keys ∨ b.mirror ∈ s.exch.keys := by
    intro b
    rw [Finset.mem_union, Finset.mem_image, List.mem_toFinset]
    refine or_congr_right ⟨?_, fun h => ⟨_, List.mem_toFinset.2 h, b.mirror_mirror⟩⟩
    rintro ⟨x, hx, rfl⟩; rw [Bond.mirror_mirror]; exact List.mem_toFinset.1 hx
  rw [sum_exchangeItems hs.keys fun b m => (e * (weight n spin b.1 * weight n spin b.2.1)) • F b m]
  have hP : ∀ b, keeps b = true → F b ((s.pairE spin b).getD 0) =
      ((if d then 2 else 1) * e * (weight n spin b.1 * weight n spin b.2.1)) • F b ((s.oneE b).getD 0) := by
    intro b hb
    rw [pairE_one hn, if_pos hb]
    cases s.oneE b with
    | none => simp
    | some m => rw [Option.map_some, Option.getD_some, Option.getD_some, map_smul]
  have hmir : ∀ b, (s.oneE b.mirror).getD 0 = ((s.oneE b).getD 0)ᵀ := by
    intro b
    rw [hs.oneE_mirror hd]
    cases s.oneE b <;> simp
  have hone : ∀ b ∈ s.exch.keys, s.oneE b = s.valE b := by
    intro b hb
    obtain ⟨m, hm⟩ := Option.isSome_iff_exists.1 (isSome_valE_iff.2 hb)
    rw [oneE_of_some hm, hm]
  have hsym : ∀ b : Bond, (e * (weight n spin b.mirror.1 * weight n spin b.mirror.2.1)) • F b.mirror ((s.oneE b.mirror).getD 0) =
      (e * (weight n spin b.1 * weight n spin b.2.1)) • F b ((s.oneE b).getD 0) := by
    intro b
    rw [hmir, hF]
    congr 1
    simp only [Bond.mirror]
    ring
  cases d with
  | false =>
    have h1 : ∑ b ∈ s.exch.keys.toFinset, (e * (weight n spin b.1 * weight n spin b.2.1)) • F b ((s.valE b).getD 0) =
        ∑ b ∈ s.exch.keys.toFinset, (e * (weight n spin b.1 * weight n spin b.2.1)) • F b ((s.oneE b).getD 0) :=
      Finset.sum_congr rfl fun b hb => by rw [hone b (List.mem_toFinset.1 hb)]
    rw [h1]
    refine Finset.sum_bij' (fun b _ => if keeps b = true then b else b.mirror)
      (fun b _ => if b ∈ s.exch.keys then b else b.mirror) ?_ ?_ ?_ ?_ ?_
    · intro b hb
      rw [List.mem_toFinset] at hb
      rw [Finset.mem_filter, hU]
      split_ifs with hk
      · exact ⟨Or.inl hb, hk⟩
      · exact ⟨Or.inr (by rw [Bond.mirror_mirror]; exact hb), by rw [hs.keeps_mirror (Or.inl hb)]; simpa using hk⟩
    · intro b hb
      rw [Finset.mem_filter, hU] at hb
      rw [List.mem_toFinset]
      split_ifs with h
      · exact h
      · exact hb.1.resolve_left h
    · intro b hb
      rw [List.mem_toFinset] at hb
      by_cases hk : keeps b = true
      · simp only [hk, if_true, hb]
      · simp only [hk, if_false, hs.single hd b hb, Bond.mirror_mirror, Bool.false_eq_true]
    · intro b hb
      rw [Finset.mem_filter, hU] at hb
      by_cases h : b ∈ s.exch.keys
      · simp only [h, if_true, hb.2]
      · have : keeps b.mirror = false := by rw [hs.keeps_mirror hb.1, hb.2]; rfl
        simp only [h, if_false, this, Bool.false_eq_true, Bond.mirror_mirror]
    · intro b hb
      rw [List.mem_toFinset] at hb
      split_ifs with hk
      · rw [hP b hk, if_neg Bool.false_ne_true, one_mul]
      · rw [hP _ (by rw [hs.keeps_mirror (Or.inl hb)]; simpa using hk), if_neg Bool.false_ne_true, one_mul, hsym]
  | true =>
    have hcl : ∀ b ∈ s.exch.keys, b.mirror ∈ s.exch.keys := by
      intro b hb
      rw [← isSome_valE_iff] at hb ⊢
      rw [hs.twice hd, Option.isSome_map]; exact hb
    have hun : s.exch.keys.toFinset ∪ s.exch.keys.toFinset.image Bond.mirror = s.exch.keys.toFinset := by
      ext b
      rw [hU, List.mem_toFinset]
      refine ⟨fun h => h.elim id fun h => ?_, Or.inl⟩
      have := hcl _ h
      rwa [Bond.mirror_mirror] at this
    have h1 : ∑ b ∈ s.exch.keys.toFinset, (e * (weight n spin b.1 * weight n spin b.2.1)) • F b ((s.valE b).getD 0) =
        ∑ b ∈ s.exch.keys.toFinset, (e * (weight n spin b.1 * weight n spin b.2.1)) • F b ((s.oneE b).getD 0) :=
      Finset.sum_congr rfl fun b hb => by rw [hone b (List.mem_toFinset.1 hb)]
    rw [hun, h1, sum_doubled (fun b hb => ?_) (fun b hb => hs.keeps_mirror (Or.inl (List.mem_toFinset.1 hb)))]
    · rw [← Finset.sum_add_distrib]
      refine Finset.sum_congr rfl fun b hb => ?_
      rw [hP b (Finset.mem_filter.1 hb).2, ← add_smul]
      congr 1
      simp only [if_true]
      ring
    · exact fun b _ => hsym b
    · exact List.mem_toFinset.2 (hcl b (List.mem_toFinset.1 hb))

/-- The same sum for two notations of one Hamiltonian. -/
theorem sum_renoted {X : Type*} [AddCommGroup X] [Module ℝ X] {s t : St ℝ} (hs : s.Paired) (ht : t.Paired)
    {d n d' n' : Bool} {e o e' o' : ℝ} (hn : s.getNotation = .ok (d, n, e, o)) (hn' : t.getNotation = .ok (d', n', e', o'))
    {spin : Atom → ℝ} (hp : ∀ b, t.pairE spin b = s.pairE spin b) (F : Bond → M3 ℝ →ₗ[ℝ] X)
    (hF : ∀ b m, F b.mirror mᵀ = F b m) :
    (t.exchangeItems.map fun p => (e' * (weight n' spin p.1.1 * weight n' spin p.1.2.1)) • F p.1 p.2).sum =
      (s.exchangeItems.map fun p => (e * (weight n spin p.1.1 * weight n spin p.1.2.1)) • F p.1 p.2).sum := by
  rw [sum_pairs hs hn, sum_pairs ht hn']
  · refine Finset.sum_congr ?_ fun b _ => by rw [hp]
    have hU : ∀ (u : St ℝ) b, b ∈ u.exch.keys.toFinset ∪ u.exch.keys.toFinset.image Bond.mirror ↔ (u.oneE b).isSome := by
      intro u b
      rw [Finset.mem_union, Finset.mem_image, List.mem_toFinset, isSome_oneE_iff]
      refine or_congr_right ⟨?_, fun h => ⟨_, List.mem_toFinset.2 h, b.mirror_mirror⟩⟩
      rintro ⟨x, hx, rfl⟩; rw [Bond.mirror_mirror]; exact List.mem_toFinset.1 hx
    ext b
    simp only [Finset.mem_filter, hU]
    refine and_congr_left fun hk => ?_
    have := congrArg Option.isSome (hp b)
    rw [pairE_one hn, pairE_one hn', if_pos hk, if_pos hk, Option.isSome_map, Option.isSome_map] at this
    rw [this]
  · exact hF
  · exact hF

end St

/-! ### `J(k)` -/

theorem displacement_eq (lat : M3 ℝ) (pos : Atom → V3 ℝ) (b : Bond) : displacement lat pos b = vector lat pos b := by
  funext c
  simp only [displacement, absolute, vector, EnergyObj.lattice, Cell.rel, Fin.sum_univ_three]
  simp
  ring

theorem complexM_add (m m' : M3 ℝ) : complexM (m + m') = complexM m + complexM m' := by
  ext i j; simp [complexM]

theorem complexM_smul (x : ℝ) (m : M3 ℝ) : complexM (x • m) = (x : ℂ) • complexM m := by
  ext i j; simp [complexM]

/-- The contribution of a bond to `J(k)` between `a` and `a'`, averaged over its two orientations. -/
noncomputable def halfSum (lat : M3 ℝ) (pos : Atom → V3 ℝ) (k : V3 ℝ) (a a' : Atom) (b : Bond) : M3 ℝ →ₗ[ℝ] M3 ℂ where
  toFun m := (1 / 2 : ℂ) • ((if b.1 = a ∧ b.2.1 = a' then phase k (vector lat pos b) • complexM m else 0) +
    if b.2.1 = a ∧ b.1 = a' then phase k (-vector lat pos b) • complexM mᵀ else 0)
  map_add' m m' := by
    rw [transpose_add, complexM_add, complexM_add]
    split_ifs <;> simp only [smul_add, add_zero, zero_add, smul_zero] <;> abel
  map_smul' x m := by
    rw [transpose_smul, complexM_smul, complexM_smul, RingHom.id_apply]
    have : ∀ y : M3 ℂ, x • y = (x : ℂ) • y := fun y => by ext i j; simp
    rw [this]
    split_ifs <;> simp only [smul_add, add_zero, zero_add, smul_zero, smul_comm (x : ℂ)]

theorem halfSum_mirror (lat : M3 ℝ) (pos : Atom → V3 ℝ) (k : V3 ℝ) (a a' : Atom) (b : Bond) (m : M3 ℝ) :
    halfSum lat pos k a a' b.mirror mᵀ = halfSum lat pos k a a' b m := by
  simp only [halfSum, LinearMap.coe_mk, AddHom.coe_mk, vector_mirror, transpose_transpose, neg_neg]
  rw [show b.mirror.1 = b.2.1 from rfl, show b.mirror.2.1 = b.1 from rfl, add_comm]

variable {order : List Atom → List Atom} {lat : M3 ℝ} {pos : Atom → V3 ℝ}
  {spinVec : Atom → Option (V3 ℝ)} {s : St ℝ} {o : MagnonObj} {t : St ℝ} {items : List (Bond × ℕ)}

theorem phase_eq (lat : M3 ℝ) (pos : Atom → V3 ℝ) (k : V3 ℝ) (b : Bond) :
    phase k (vector lat pos b) = exp (-(I * ((k ⬝ᵥ displacement lat pos b : ℝ) : ℂ))) ∧
      phase k (-vector lat pos b) = exp (I * ((k ⬝ᵥ displacement lat pos b : ℝ) : ℂ)) := by
  rw [displacement_eq]
  constructor
  · rw [phase, neg_mul]
  · rw [phase, dotProduct_neg]
    congr 1
    push_cast
    ring

/-- The Fourier transform of the specification as a sum over bonds. -/
theorem bondFourier_eq {d n : Bool} {e f : ℝ} (hn : s.getNotation = .ok (d, n, e, f)) (spin : Atom → ℝ) (k : V3 ℝ)
    (a a' : Atom) : s.bondFourier lat pos spin k a a' = (s.exchangeItems.map fun p =>
      (e * (weight n spin p.1.1 * weight n spin p.1.2.1)) • halfSum lat pos k a a' p.1 p.2).sum := by
  unfold St.bondFourier
  rw [hn]
  simp only
  congr 1
  refine List.map_congr_left fun p _ => ?_
  simp only [halfSum, LinearMap.coe_mk, AddHom.coe_mk, (phase_eq lat pos k p.1).1, (phase_eq lat pos k p.1).2]
  have : ∀ (x : ℝ) (y : M3 ℂ), x • y = (x : ℂ) • y := fun x y => by ext i j; simp
  rw [this, smul_smul, if_congr (and_comm (a := p.1.2.1 = a)) rfl rfl]
  congr 1
  push_cast
  ring

/-- `J(k)` from the parameters of the user: for all notations, `S_i S_j J_ij(k)` is the Fourier transform of the energies
of the bonds, and for `i = j` the on-site energy in addition. -/
theorem ObjSpec.J_fourier (h : ObjSpec order lat pos spinVec s o t items) (hord : ∀ l, (order l).Perm l) {spin : Atom → ℝ}
    (hr : MagnonReady order spinVec s spin) (hR : St.Renoted Unit spin s t) (k : V3 ℝ) (i j : Fin o.N) :
    let a := atomAt o (t.magneticAtoms order) i
    let a' := atomAt o (t.magneticAtoms order) j
    ((spin a * spin a' : ℝ) : ℂ) • o.J t.cell k i j =
      s.bondFourier lat pos spin k a a' + if a = a' then s.siteEnergy spin a else 0 := by
  intro a a'
  obtain ⟨d, n, e, f, hn, he, hf⟩ := hr.complete
  have hJ : o.J t.cell k i j = (t.onSiteItems.map fun p => if p.1 = a ∧ p.1 = a' then complexM p.2 else 0).sum +
      (t.exchangeItems.map fun p => if p.1.1 = a ∧ p.1.2.1 = a' then phase k (vector lat pos p.1) • complexM p.2 else 0).sum := by
    rw [h.J_eq, likeItems, List.map_append, List.sum_append, List.map_map]
    congr 1
    · congr 1
      refine List.map_congr_left fun p hp => ?_
      have hm := h.like_atoms (p := ((p.1, p.1, (0, 0, 0)), p.2))
        (List.mem_append_left _ (List.mem_map.2 ⟨p, hp, rfl⟩))
      simp only [Function.comp]
      rw [if_congr (and_congr (idxOf_eq h hord hm.1 i) (idxOf_eq h hord hm.1 j)) rfl rfl]
      have : vector lat pos (p.1, p.1, (0, 0, 0)) = 0 := by
        funext c; simp [vector, EnergyObj.lattice]
      rw [this, show phase k 0 = 1 by simp [phase], one_smul]
      rfl
    · congr 1
      refine List.map_congr_left fun p hp => ?_
      have hm := h.like_atoms (p := p) (List.mem_append_right _ hp)
      rw [if_congr (and_congr (idxOf_eq h hord hm.1 i) (idxOf_eq h hord hm.2 j)) rfl rfl]
      rfl
  have hd := (St.getNotation_ok_iff.1 h.flags).1
  have hE : (t.exchangeItems.map fun p => if p.1.1 = a ∧ p.1.2.1 = a' then phase k (vector lat pos p.1) • complexM p.2 else 0).sum =
      (t.exchangeItems.map fun p => halfSum lat pos k a a' p.1 p.2).sum := by
    have hm := St.sum_mirror h.inv.nodup (hR.wf.twice hd)
      fun p => if p.1.1 = a ∧ p.1.2.1 = a' then phase k (vector lat pos p.1) • complexM p.2 else 0
    simp only [halfSum, LinearMap.coe_mk, AddHom.coe_mk]
    have hs2 : ∀ l : List (Bond × M3 ℝ), ∀ f g : Bond × M3 ℝ → M3 ℂ,
        (l.map fun p => (1 / 2 : ℂ) • (f p + g p)).sum = (1 / 2 : ℂ) • ((l.map f).sum + (l.map g).sum) := by
      intro l f g
      induction l with
      | nil => simp
      | cons p l ih => simp only [List.map_cons, List.sum_cons, ih, ← smul_add]; congr 1; abel
    rw [hs2]
    have hm' : (t.exchangeItems.map fun p =>
        if p.1.2.1 = a ∧ p.1.1 = a' then phase k (-vector lat pos p.1) • complexM p.2ᵀ else 0).sum =
        (t.exchangeItems.map fun p => if p.1.1 = a ∧ p.1.2.1 = a' then phase k (vector lat pos p.1) • complexM p.2 else 0).sum := by
      rw [hm]
      congr 1
      refine List.map_congr_left fun p _ => ?_
      rw [vector_mirror]
      rfl
    rw [hm', ← two_smul ℂ, smul_smul]
    norm_num
  have hSa : ∀ i : Fin o.N, spin (atomAt o (t.magneticAtoms order) i) ≠ 0 := fun i =>
    (hR.spins _ (magneticAtoms_mem hord hR.wf.toSound (atomAt_mem h hord i))).2
  have hreal : ∀ (x : ℝ) (y : M3 ℂ), (x : ℂ) • y = x • y := fun x y => by ext i j; simp
  rw [hJ, hE, smul_add, add_comm]
  congr 1
  · rw [bondFourier_eq hn, ← St.sum_renoted hr.wf hR.wf.paired hn h.flags hR.pairE _ (halfSum_mirror lat pos k a a'), hreal,
      List.smul_sum, List.map_map]
    congr 1
    refine List.map_congr_left fun p _ => ?_
    simp only [Function.comp]
    by_cases hc : (p.1.1 = a ∧ p.1.2.1 = a') ∨ (p.1.2.1 = a ∧ p.1.1 = a')
    · congr 1
      simp only [weight, Bool.false_eq_true, if_false, one_mul]
      rcases hc with ⟨e1, e2⟩ | ⟨e1, e2⟩
      · rw [e1, e2]
      · rw [e1, e2, mul_comm]
    · rw [not_or] at hc
      have : halfSum lat pos k a a' p.1 p.2 = 0 := by
        simp only [halfSum, LinearMap.coe_mk, AddHom.coe_mk, if_neg hc.1, if_neg hc.2, add_zero, smul_zero]
      rw [this, smul_zero, smul_zero]
  · by_cases haa : a = a'
    · rw [if_pos haa]
      unfold St.siteEnergy
      rw [hn]
      simp only
      have hk : (t.onSiteItems.map fun p => if p.1 = a ∧ p.1 = a' then complexM p.2 else 0).sum =
          complexM ((t.valO a).getD 0) := by
        have := sum_key t.onSite h.inv.nodup.site t.cell a
        rw [St.valO, ← this]
        have hc : ∀ l : List (M3 ℝ), complexM l.sum = (l.map complexM).sum := by
          intro l
          induction l with
          | nil => ext i j; simp [complexM]
          | cons m l ih => rw [List.sum_cons, complexM_add, ih, List.map_cons, List.sum_cons]
        rw [hc, St.onSiteItems, List.map_map, List.map_map]
        congr 1
        refine List.map_congr_left fun p _ => ?_
        simp only [Function.comp, ← haa, and_self]
        split_ifs
        · rfl
        · ext i j; simp [complexM]
      rw [hk]
      have hv := hR.siteE a
      rw [St.siteE_eq hn, St.siteE_eq h.flags] at hv
      have hv' : (1 * (spin a * spin a)) • (t.valO a).getD 0 = (f * (weight n spin a * weight n spin a)) • (s.valO a).getD 0 := by
        have := congrArg (fun x => x.getD 0) hv
        simp only [weight, Bool.false_eq_true, if_false] at this ⊢
        cases h1 : t.valO a <;> cases h2 : s.valO a <;> rw [h1, h2] at this <;> simpa using this
      have h3 := congrArg complexM hv'
      rw [complexM_smul, complexM_smul] at h3
      rw [← haa, pow_two, ← h3, one_mul]
    · rw [if_neg haa]
      have : (t.onSiteItems.map fun p => if p.1 = a ∧ p.1 = a' then complexM p.2 else 0).sum = 0 := by
        refine List.sum_eq_zero fun x hx => ?_
        obtain ⟨p, _, rfl⟩ := List.mem_map.1 hx
        exact if_neg fun hp => haa (hp.1.symm.trans hp.2)
      rw [this, smul_zero]

end Magnopy
