import Verif.Spec.Describe
import Verif.Lemmas.Wave
import Verif.Lemmas.Magnon
import Mathlib.Data.ZMod.Basic
import Mathlib.Data.Int.Lemmas

/-!
# Helper lemmas: the classical energy determines the couplings
-/

set_option autoImplicit false
set_option linter.unusedSectionVars false

namespace Magnopy

open PyDict Matrix MagnonObj

/-! ### A large supercell -/

/-- The reduction into a supercell of `n × n × n` cells. -/
def reduce (n : ℕ) : Cell →+ ZMod n × ZMod n × ZMod n :=
  (Int.castAddHom (ZMod n)).prodMap ((Int.castAddHom (ZMod n)).prodMap (Int.castAddHom (ZMod n)))

theorem reduce_zero {n : ℕ} {v : Cell} (h1 : v.1.natAbs < n) (h2 : v.2.1.natAbs < n) (h3 : v.2.2.natAbs < n)
    (h : reduce n v = 0) : v = 0 := by
  have key : ∀ x : ℤ, x.natAbs < n → ((x : ℤ) : ZMod n) = 0 → x = 0 := by
    intro x hx h0
    rw [ZMod.intCast_zmod_eq_zero_iff_dvd] at h0
    exact Int.eq_zero_of_dvd_of_natAbs_lt_natAbs h0 (by simpa using hx)
  have e1 : ((v.1 : ℤ) : ZMod n) = 0 := congrArg Prod.fst h
  have e2 : ((v.2.1 : ℤ) : ZMod n) = 0 := congrArg (fun p => p.2.1) h
  have e3 : ((v.2.2 : ℤ) : ZMod n) = 0 := congrArg (fun p => p.2.2) h
  exact Prod.ext (key _ h1 e1) (Prod.ext (key _ h2 e2) (key _ h3 e3))

/-- There is a supercell in which finitely many lattice vectors do not vanish. -/
theorem exists_supercell (L : List Cell) : ∃ n : ℕ, n ≠ 0 ∧ ∀ v ∈ L, reduce n v = 0 → v = 0 := by
  refine ⟨(L.map fun v => v.1.natAbs + v.2.1.natAbs + v.2.2.natAbs).sum + 1, by simp, fun v hv => ?_⟩
  have h := List.single_le_sum (l := L.map fun v => v.1.natAbs + v.2.1.natAbs + v.2.2.natAbs) (by simp) _
    (List.mem_map.2 ⟨v, hv, rfl⟩)
  refine reduce_zero ?_ ?_ ?_ <;> omega

/-! ### Bilinear forms -/

theorem bilinear_add_left (x x' : V3 ℝ) (m : M3 ℝ) (y : V3 ℝ) : bilin (x + x') m y = bilin x m y + bilin x' m y := by
  simp only [bilin, Fin.sum_univ_three, Pi.add_apply]; ring

theorem bilinear_add_right (x : V3 ℝ) (m : M3 ℝ) (y y' : V3 ℝ) : bilin x m (y + y') = bilin x m y + bilin x m y' := by
  simp only [bilin, Fin.sum_univ_three, Pi.add_apply]; ring

theorem bilinear_zero_left (m : M3 ℝ) (y : V3 ℝ) : bilin 0 m y = 0 := by simp [bilin]

theorem bilinear_zero_right (x : V3 ℝ) (m : M3 ℝ) : bilin x m 0 = 0 := by simp [bilin]

theorem bilinear_mid (x : V3 ℝ) (m m' : M3 ℝ) (y : V3 ℝ) : bilin x (m + m') y = bilin x m y + bilin x m' y := by
  simp only [bilin, Fin.sum_univ_three, Matrix.add_apply]; ring

theorem bilinear_swap (x : V3 ℝ) (m : M3 ℝ) (y : V3 ℝ) : bilin x mᵀ y = bilin y m x := by
  simp only [bilin, Fin.sum_univ_three, Matrix.transpose_apply]; ring

theorem bilinear_turn (Q m : M3 ℝ) (x y : V3 ℝ) : bilin (Qᵀ *ᵥ x) m (Qᵀ *ᵥ y) = bilin x (Q * m * Qᵀ) y := by
  have h : ∀ (u : V3 ℝ) (M : M3 ℝ) (v : V3 ℝ), bilin u M v = u ⬝ᵥ (M *ᵥ v) := by
    intro u M v
    simp only [bilin, dotProduct, mulVec, Finset.mul_sum, mul_assoc]
  rw [h, h, Matrix.mulVec_transpose, ← Matrix.dotProduct_mulVec, Matrix.mulVec_mulVec, Matrix.mulVec_mulVec,
    Matrix.mul_assoc]

theorem bilinear_ext {m m' : M3 ℝ} (h : ∀ x y, bilin x m y = bilin x m' y) : m = m' := by
  have hb : ∀ (M : M3 ℝ) (i j : Fin 3), bilin (Pi.single i 1) M (Pi.single j 1) = M i j := by
    intro M i j
    simp [bilin, Pi.single_apply]
  ext i j
  rw [← hb m, ← hb m', h]

/-! ### Couplings -/

/-- The coupling of a pair of atoms, zero if there is none; on-site terms are the coupling of an atom with itself. -/
def couple (l : List (Bond × M3 ℝ)) (b : Bond) : M3 ℝ := (l.map fun p => if p.1 = b then p.2 else 0).sum

theorem couple_cons (p : Bond × M3 ℝ) (l : List (Bond × M3 ℝ)) (b : Bond) :
    couple (p :: l) b = (if p.1 = b then p.2 else 0) + couple l b := by
  simp [couple]

theorem couple_absent {l : List (Bond × M3 ℝ)} {b : Bond} (h : ∀ p ∈ l, p.1 ≠ b) : couple l b = 0 := by
  unfold couple
  refine List.sum_eq_zero fun x hx => ?_
  obtain ⟨p, hp, rfl⟩ := List.mem_map.1 hx
  exact if_neg (h p hp)

theorem couple_mirror {t : St ℝ} (hk : t.KeysNodup) (hs : MagnonObj.Symmetric t) (b : Bond) :
    couple (likeItems t) b.mirror = (couple (likeItems t) b)ᵀ := by
  unfold couple
  rw [sum_like hk hs, Matrix.transpose_list_sum, List.map_map]
  congr 1
  refine List.map_congr_left fun p _ => ?_
  simp only [Function.comp]
  by_cases hc : p.1 = b
  · rw [if_pos hc, if_pos (by rw [hc])]
  · rw [if_neg hc, if_neg fun e => hc ?_, transpose_zero]
    rw [← p.1.mirror_mirror, e, b.mirror_mirror]

/-- Sums over terms are sums over bonds. -/
theorem sum_by_bond {M : Type*} [AddCommMonoid M] (l : List (Bond × M3 ℝ)) (φ : Bond → M3 ℝ →+ M) (K : Finset Bond)
    (hK : ∀ p ∈ l, p.1 ∈ K) : (l.map fun p => φ p.1 p.2).sum = ∑ b ∈ K, φ b (couple l b) := by
  induction l with
  | nil => simp [couple]
  | cons p l ih =>
    rw [List.map_cons, List.sum_cons, ih fun q hq => hK q (List.mem_cons_of_mem _ hq)]
    simp only [couple_cons, map_add, Finset.sum_add_distrib]
    congr 1
    rw [Finset.sum_eq_single p.1]
    · rw [if_pos rfl]
    · intro b _ hb
      rw [if_neg (Ne.symm hb), map_zero]
    · intro h
      exact absurd (hK p List.mem_cons_self) h

/-! ### The energy of two points -/

variable {Γ : Type*} [AddCommGroup Γ] [Fintype Γ]

/-- The sum over all terms for two configurations. -/
noncomputable def cross (l : List (Bond × M3 ℝ)) (w : Atom → ℝ) (τ : Cell →+ Γ) (σ σ' : Atom → Γ → V3 ℝ) : ℝ :=
  (l.map fun p => ∑ n : Γ, bilin (w p.1.1 • σ p.1.1 n) p.2 (w p.1.2.1 • σ' p.1.2.1 (n + τ p.1.2.2))).sum

theorem cross_add (l : List (Bond × M3 ℝ)) (w : Atom → ℝ) (τ : Cell →+ Γ) (σ σ' : Atom → Γ → V3 ℝ) :
    cross l w τ (fun a n => σ a n + σ' a n) (fun a n => σ a n + σ' a n) =
      cross l w τ σ σ + cross l w τ σ' σ' + (cross l w τ σ σ' + cross l w τ σ' σ) := by
  unfold cross
  induction l with
  | nil => simp
  | cons p l ih =>
    simp only [List.map_cons, List.sum_cons] at ih ⊢
    rw [ih]
    simp only [smul_add, bilinear_add_left, bilinear_add_right, Finset.sum_add_distrib]
    ring

/-- If the configurations are not zero at one atom each, only one bond contributes. -/
theorem cross_points [DecidableEq Γ] (l : List (Bond × M3 ℝ)) (w : Atom → ℝ) (τ : Cell →+ Γ) (σ σ' : Atom → Γ → V3 ℝ) (a b : Atom)
    (R : Cell) (γ γ' : Γ) (x y : V3 ℝ) (h1 : ∀ p ∈ l, ∀ n, σ p.1.1 n = if p.1.1 = a ∧ n = γ then x else 0)
    (h2 : ∀ p ∈ l, ∀ n, σ' p.1.2.1 n = if p.1.2.1 = b ∧ n = γ' then y else 0)
    (h3 : ∀ p ∈ l, γ + τ p.1.2.2 = γ' ↔ p.1.2.2 = R) :
    cross l w τ σ σ' = w a * w b * bilin x (couple l (a, b, R)) y := by
  unfold cross
  induction l with
  | nil => simp [couple, bilin]
  | cons p l ih =>
    rw [List.map_cons, List.sum_cons, ih (fun q hq => h1 q (List.mem_cons_of_mem _ hq))
      (fun q hq => h2 q (List.mem_cons_of_mem _ hq)) (fun q hq => h3 q (List.mem_cons_of_mem _ hq)), couple_cons, bilinear_mid,
      mul_add]
    congr 1
    have e1 := h1 p List.mem_cons_self
    have e2 := h2 p List.mem_cons_self
    have e3 := h3 p List.mem_cons_self
    simp only [e1, e2]
    rw [Finset.sum_eq_single γ]
    · have hz : bilin x (0 : M3 ℝ) y = 0 := by simp [bilin]
      by_cases ha : p.1.1 = a
      · rw [if_pos (⟨ha, rfl⟩ : p.1.1 = a ∧ γ = γ)]
        by_cases hb : p.1.2.1 = b ∧ γ + τ p.1.2.2 = γ'
        · have hp : p.1 = (a, b, R) := by rw [← ha, ← hb.1, ← e3.1 hb.2]
          rw [if_pos hb, if_pos hp, bilin_smul_smul, ha, hb.1]
        · have hp : p.1 ≠ (a, b, R) := fun h => hb (by rw [e3, h]; exact ⟨rfl, rfl⟩)
          rw [if_neg hb, if_neg hp, smul_zero, bilinear_zero_right, hz, mul_zero]
      · have hp : p.1 ≠ (a, b, R) := fun h => ha (by rw [h])
        rw [if_neg (fun h : p.1.1 = a ∧ γ = γ => ha h.1), if_neg hp, smul_zero, bilinear_zero_left, hz, mul_zero]
    · intro n _ hn
      rw [if_neg (fun h => hn h.2), smul_zero, bilinear_zero_left]
    · simp

/-! ### Two descriptions -/

/-- The bond in the new description. -/
def Description.bond (f : Description) (b : Bond) : Bond :=
  (f.name b.1, f.name b.2.1, f.cells b.2.2 + f.shift b.2.1 - f.shift b.1)

theorem Description.bond_mirror (f : Description) (b : Bond) : f.bond b.mirror = (f.bond b).mirror := by
  obtain ⟨a, b, R⟩ := b
  have hm : ∀ R : Cell, ((-R.1, -R.2.1, -R.2.2) : Cell) = -R := fun R => rfl
  simp only [Description.bond, Bond.mirror, Prod.mk.injEq, true_and]
  first
    | (simp only [hm, map_neg]; abel)
    | (rw [map_neg]; abel)

/-- **The energy determines the couplings.** -/
theorem Description.Holds.couple {f : Description} {l l' : List Atom} {spin spin' : Atom → ℝ} {s s' t t' : St ℝ}
    (h : f.Holds l l' spin spin' s s') (hn : t.getNotation = .ok (true, false, 1, 1))
    (hn' : t'.getNotation = .ok (true, false, 1, 1))
    (hp : ∀ (Γ : Type) [AddCommGroup Γ] [Fintype Γ] (c : Config ℝ Γ), t.physics c spin = s.physics c spin)
    (hp' : ∀ (Γ : Type) [AddCommGroup Γ] [Fintype Γ] (c : Config ℝ Γ), t'.physics c spin' = s'.physics c spin')
    (hk : t.KeysNodup) (hk' : t'.KeysNodup) (hs : MagnonObj.Symmetric t) (hs' : MagnonObj.Symmetric t')
    (hl : ∀ p ∈ likeItems t, p.1.1 ∈ l ∧ p.1.2.1 ∈ l) (h0 : ∀ a ∈ l, spin a ≠ 0) {b : Bond} (h1 : b.1 ∈ l) (h2 : b.2.1 ∈ l) :
    Magnopy.couple (likeItems t') (f.bond b) = f.turn * Magnopy.couple (likeItems t) b * f.turnᵀ := by
  classical
  obtain ⟨a, b, R⟩ := b
  simp only at h1 h2
  obtain ⟨N, hN, hinj⟩ := exists_supercell
    ((likeItems t).map (fun p => f.cells (p.1.2.2 - R)) ++ (likeItems t).map (fun p => f.cells (p.1.2.2 - -R)) ++
      (likeItems t').map (fun p => p.1.2.2 - (f.cells R + f.shift b - f.shift a)) ++
      (likeItems t').map (fun p => p.1.2.2 - -(f.cells R + f.shift b - f.shift a)))
  have : NeZero N := ⟨hN⟩
  set τ := reduce N with hτ
  set τ' := τ.comp f.cells.toAddMonoidHom with hτ'
  have hcells : ∀ R, τ' R = τ (f.cells R) := fun R => rfl
  have i1 : ∀ p ∈ likeItems t, τ' p.1.2.2 = τ' R ↔ p.1.2.2 = R := fun p hp =>
    ⟨fun e => sub_eq_zero.1 ((map_eq_zero_iff f.cells f.cells.injective).1
      (hinj _ (by simp only [List.mem_append, List.mem_map]; exact .inl (.inl (.inl ⟨p, hp, rfl⟩)))
      (by rw [hcells, hcells] at e; rw [map_sub, map_sub, e, sub_self]))), fun e => by rw [e]⟩
  have i2 : ∀ p ∈ likeItems t, τ' p.1.2.2 = -τ' R ↔ p.1.2.2 = -R := fun p hp =>
    ⟨fun e => sub_eq_zero.1 ((map_eq_zero_iff f.cells f.cells.injective).1
      (hinj _ (by simp only [List.mem_append, List.mem_map]; exact .inl (.inl (.inr ⟨p, hp, rfl⟩)))
      (by rw [hcells, hcells] at e; rw [map_sub, map_sub, e, map_neg, map_neg, sub_self]))), fun e => by rw [e, map_neg]⟩
  have i3 : ∀ p ∈ likeItems t', τ p.1.2.2 = τ (f.cells R + f.shift b - f.shift a) ↔ p.1.2.2 = f.cells R + f.shift b - f.shift a := fun p hp =>
    ⟨fun e => sub_eq_zero.1 (hinj _ (by simp only [List.mem_append, List.mem_map]; exact .inl (.inr ⟨p, hp, rfl⟩))
      (by rw [map_sub, e, sub_self])), fun e => by rw [e]⟩
  have i4 : ∀ p ∈ likeItems t', τ p.1.2.2 = -τ (f.cells R + f.shift b - f.shift a) ↔ p.1.2.2 = -(f.cells R + f.shift b - f.shift a) :=
    fun p hp =>
    ⟨fun e => sub_eq_zero.1 (hinj _ (by simp only [List.mem_append, List.mem_map]; exact .inr ⟨p, hp, rfl⟩)
      (by rw [map_sub, e, map_neg, sub_self])), fun e => by rw [e, map_neg]⟩
  -- the energies of all configurations of this supercell
  have hE : ∀ σ : Atom → ZMod N × ZMod N × ZMod N → V3 ℝ, cross (likeItems t') spin' τ σ σ =
      cross (likeItems t) spin τ' (fun a n => f.turnᵀ *ᵥ σ (f.name a) (n + τ (f.shift a)))
        (fun a n => f.turnᵀ *ᵥ σ (f.name a) (n + τ (f.shift a))) := by
    intro σ
    have e := h.energy _ (⟨τ, σ⟩ : Config ℝ (ZMod N × ZMod N × ZMod N))
    rw [← hp, ← hp', energy_like hn, energy_like hn'] at e
    exact Option.some.inj e
  -- the mixed terms
  have hX : ∀ σ σ' : Atom → ZMod N × ZMod N × ZMod N → V3 ℝ,
      cross (likeItems t') spin' τ σ σ' + cross (likeItems t') spin' τ σ' σ =
      cross (likeItems t) spin τ' (fun a n => f.turnᵀ *ᵥ σ (f.name a) (n + τ (f.shift a)))
        (fun a n => f.turnᵀ *ᵥ σ' (f.name a) (n + τ (f.shift a))) +
      cross (likeItems t) spin τ' (fun a n => f.turnᵀ *ᵥ σ' (f.name a) (n + τ (f.shift a)))
        (fun a n => f.turnᵀ *ᵥ σ (f.name a) (n + τ (f.shift a))) := by
    intro σ σ'
    have e := hE fun a n => σ a n + σ' a n
    simp only [mulVec_add] at e
    rw [cross_add, cross_add, hE σ, hE σ'] at e
    linarith
  refine bilinear_ext fun x y => ?_
  have e := hX (fun c n => if c = f.name a ∧ n = τ (f.shift a) then x else 0)
    (fun c n => if c = f.name b ∧ n = τ (f.cells R + f.shift b) then y else 0)
  have inj : ∀ c ∈ l, ∀ d ∈ l, (f.name c = f.name d ↔ c = d) := fun c hc d hd => ⟨h.inj c hc d hd, fun e => by rw [e]⟩
  have hmul : ∀ (P : Prop) [Decidable P] (v : V3 ℝ), f.turnᵀ *ᵥ (if P then v else 0) = if P then f.turnᵀ *ᵥ v else 0 := by
    intro P _ v
    split_ifs
    · rfl
    · exact mulVec_zero _
  have c1 := cross_points (likeItems t') spin' τ (fun c n => if c = f.name a ∧ n = τ (f.shift a) then x else 0)
    (fun c n => if c = f.name b ∧ n = τ (f.cells R + f.shift b) then y else 0) (f.name a) (f.name b) (f.cells R + f.shift b - f.shift a) (τ (f.shift a))
    (τ (f.cells R + f.shift b)) x y (fun p _ n => rfl) (fun p _ n => rfl) (fun p hp => by
      rw [← i3 p hp, map_sub, map_add]
      constructor <;> intro e
      · rw [← e]; abel
      · rw [e]; abel)
  have c2 := cross_points (likeItems t') spin' τ (fun c n => if c = f.name b ∧ n = τ (f.cells R + f.shift b) then y else 0)
    (fun c n => if c = f.name a ∧ n = τ (f.shift a) then x else 0) (f.name b) (f.name a) (-(f.cells R + f.shift b - f.shift a)) (τ (f.cells R + f.shift b))
    (τ (f.shift a)) y x (fun p _ n => rfl) (fun p _ n => rfl) (fun p hp => by
      rw [← i4 p hp, map_sub, map_add]
      constructor <;> intro e
      · rw [← e]; abel
      · rw [e]; abel)
  have q1 : ∀ c ∈ l, ∀ n, f.turnᵀ *ᵥ (if f.name c = f.name a ∧ n + τ (f.shift c) = τ (f.shift a) then x else 0) =
      if c = a ∧ n = 0 then f.turnᵀ *ᵥ x else 0 := by
    intro c hc n
    rw [hmul]
    refine if_congr ?_ rfl rfl
    rw [inj _ hc _ h1]
    refine and_congr_right fun e => ?_
    rw [e]
    exact ⟨fun e => by simpa using e, fun e => by rw [e, zero_add]⟩
  have q2 : ∀ c ∈ l, ∀ n, f.turnᵀ *ᵥ (if f.name c = f.name b ∧ n + τ (f.shift c) = τ (f.cells R + f.shift b) then y else 0) =
      if c = b ∧ n = τ' R then f.turnᵀ *ᵥ y else 0 := by
    intro c hc n
    rw [hmul]
    refine if_congr ?_ rfl rfl
    rw [inj _ hc _ h2]
    refine and_congr_right fun e => ?_
    rw [e, map_add, hcells]
    exact ⟨fun e => by simpa using e, fun e => by rw [e]⟩
  have c3 := cross_points (likeItems t) spin τ'
    (fun c n => f.turnᵀ *ᵥ (if f.name c = f.name a ∧ n + τ (f.shift c) = τ (f.shift a) then x else 0))
    (fun c n => f.turnᵀ *ᵥ (if f.name c = f.name b ∧ n + τ (f.shift c) = τ (f.cells R + f.shift b) then y else 0))
    a b R 0 (τ' R) (f.turnᵀ *ᵥ x) (f.turnᵀ *ᵥ y) (fun p hp n => q1 _ (hl p hp).1 n) (fun p hp n => q2 _ (hl p hp).2 n)
    (fun p hp => by rw [zero_add]; exact i1 p hp)
  have c4 := cross_points (likeItems t) spin τ'
    (fun c n => f.turnᵀ *ᵥ (if f.name c = f.name b ∧ n + τ (f.shift c) = τ (f.cells R + f.shift b) then y else 0))
    (fun c n => f.turnᵀ *ᵥ (if f.name c = f.name a ∧ n + τ (f.shift c) = τ (f.shift a) then x else 0))
    b a (-R) (τ' R) 0 (f.turnᵀ *ᵥ y) (f.turnᵀ *ᵥ x) (fun p hp n => q2 _ (hl p hp).1 n) (fun p hp n => q1 _ (hl p hp).2 n)
    (fun p hp => by
      rw [← i2 p hp]
      exact ⟨fun e => by rw [eq_neg_iff_add_eq_zero, add_comm]; exact e, fun e => by rw [e]; abel⟩)
  rw [c1, c2, c3, c4] at e
  have m1 : ((b, a, -R) : Bond) = Bond.mirror (a, b, R) := rfl
  have m2 : ((f.name b, f.name a, -(f.cells R + f.shift b - f.shift a)) : Bond) =
    Bond.mirror (f.name a, f.name b, f.cells R + f.shift b - f.shift a) := rfl
  rw [m1, m2, couple_mirror hk hs, couple_mirror hk' hs', bilinear_swap, bilinear_swap, bilinear_turn, h.spins a h1, h.spins b h2] at e
  have hne : spin a * spin b ≠ 0 := mul_ne_zero (h0 a h1) (h0 b h2)
  have e' : spin a * spin b * bilin x (Magnopy.couple (likeItems t') (f.name a, f.name b, f.cells R + f.shift b - f.shift a)) y =
      spin a * spin b * bilin x (f.turn * Magnopy.couple (likeItems t) (a, b, R) * f.turnᵀ) y := by
    linarith
  exact mul_left_cancel₀ hne e'

end Magnopy
