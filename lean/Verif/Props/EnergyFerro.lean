import Verif.Lemmas.EnergyInit
import Verif.Lemmas.Off
import Verif.Props.EnergyCone
import Verif.Props.HamNotation

/-!
# Properties C23-C25: the `Energy` object and its Hamiltonian
-/

set_option autoImplicit false

set_option linter.unusedSectionVars false

namespace Magnopy

open PyDict EnergyObj

/-! ### C23 -/

section C23

variable {K : Type*} [Field K]

theorem getD_map_idxOf {α β : Type*} [DecidableEq α] (l : List α) (f : α → β) (d : β) {a : α} (h : a ∈ l) :
    (l.map f).getD (l.idxOf a) d = f a := by
  rw [List.getD_eq_getElem?_getD, List.getElem?_map, List.getElem?_idxOf h]
  rfl

/-- A configuration that repeats the unit cell. -/
def Config.Repeats {Γ : Type*} [AddCommGroup Γ] (c : Config K Γ) (dir : Atom → V3 K) : Prop :=
  ∀ a n, c.σ a n = dir a

theorem Config.Repeats.bond {Γ : Type*} [AddCommGroup Γ] [Fintype Γ] {c : Config K Γ} {dir : Atom → V3 K}
    (h : c.Repeats dir) (b : Bond) (J : M3 K) : c.bond b J = Fintype.card Γ * bilin (dir b.1) J (dir b.2.1) := by
  simp only [Config.bond, h _ _, Finset.sum_const, Finset.card_univ, nsmul_eq_mul]

/-- The energy of the bonds of an Energy object, per cell. -/
theorem InitSpec.sum [DecidableEq K] (h2 : (2 : K) ≠ 0) {order : List Atom → List Atom} {cell : M3 K} {g spin : Atom → K}
    {s : St K} {d : Bool} {e o : K} {E : EnergyObj K} {t : St K} {l1 l2 : List (Bond × ℕ)} {t1 : St K}
    (h : InitSpec order cell g spin s d e o E t l1 l2 t1) (hs : s.Paired) (hd : s.dc = some d)
    (dir : Atom → V3 K) {Γ : Type*} [AddCommGroup Γ] [Fintype Γ] (c : Config K Γ) (hc : c.Repeats dir) :
    Fintype.card Γ * E.bondSum (fun _ J => J) t.cell ((s.magneticAtoms order).map dir) =
      (if d then 1 else 2) * e * c.bonds spin s.exchangeItems + e ^ 2 / o * c.sites spin s.onSiteItems := by
  have hsum : Fintype.card Γ * E.bondSum (fun _ J => J) t.cell ((s.magneticAtoms order).map dir) =
      e * c.bonds spin ((l1 ++ l2).map fun p => (p.1, t.cell p.2)) := by
    unfold bondSum Config.bonds
    rw [h.bonds, h.spins, h.factor, List.map_map, List.map_map, ← List.sum_map_mul_left, ← List.sum_map_mul_left]
    congr 1
    apply List.map_congr_left
    intro p hp
    have hp := h.atoms p hp
    simp only [Function.comp, bondOf]
    rw [getD_map_idxOf _ _ _ hp.1, getD_map_idxOf _ _ _ hp.2, getD_map_idxOf _ _ _ hp.1, getD_map_idxOf _ _ _ hp.2,
      hc.bond]
    simp only [einsum3, bilin]
    ring
  have hk : ∀ (x : K) (l : List (Bond × M3 K)), c.bonds spin (l.map fun p => (p.1, x • p.2)) = x * c.bonds spin l := by
    intro x l
    unfold Config.bonds
    rw [List.map_map, ← List.sum_map_mul_left]
    congr 1
    apply List.map_congr_left
    intro p _
    simp only [Function.comp, Config.bond_smul]
    ring
  rw [hsum, List.map_append, Config.bonds_append, h.sites, h.exch, Config.bonds_sites, hk,
    St.setDC_paired_bonds hs h.onWf h2 hd h.onVal]
  ring

end C23

/-- The setting of C23-C25: a Hamiltonian that has bonds as its notation says (if it counts them once, in one of
the two orientations), with a complete notation and spins of its magnetic atoms. -/
structure EnergyReady {K : Type*} [Field K] (order : List Atom → List Atom) (s : St K) (spin : Atom → K) (d n : Bool)
    (e o : K) : Prop where
  wf : s.Paired
  notation_ : s.getNotation = .ok (d, n, e, o)
  ne : o ≠ 0
  spins : ∀ a ∈ s.magneticAtoms order, s.spin a = some (spin a)

theorem St.getNotation_fields {K : Type*} [Field K] {s : St K} {d n : Bool} {e o : K} (h : s.getNotation = .ok (d, n, e, o)) :
    s.dc = some d ∧ s.sn = some n ∧ s.ef = some e ∧ s.osf = some o := by
  unfold St.getNotation at h
  cases h1 : s.dc <;> cases h2 : s.sn <;> cases h3 : s.ef <;> cases h4 : s.osf <;> simp [h1, h2, h3, h4] at h ⊢
  exact h

theorem EnergyReady.spec {K : Type*} [Field K] [DecidableEq K] (h2 : (2 : K) ≠ 0) {order : List Atom → List Atom}
    (hord : ∀ l, (order l).Perm l) (cell : M3 K) (g : Atom → K) {s : St K} {spin : Atom → K} {d n : Bool} {e o : K}
    (h : EnergyReady order s spin d n e o) : ∃ E t l1 l2 t1, InitSpec order cell g spin s d e o E t l1 l2 t1 :=
  have hf := St.getNotation_fields h.notation_
  init_spec h2 hord cell g spin h.wf hf.1 hf.2.2.1 hf.2.2.2 h.ne h.spins

/-- **C23, exact value.** For every Hamiltonian with magnetic atoms, every notation and all unit
vectors, `Energy(ham).ferro` succeeds.  On every supercell `Γ` with that repeated configuration, `|Γ|` times
the result is the sum of the bond energies of the Hamiltonian (twice that if it does not count bonds twice)
and of the on-site energies times `exchange_factor² / on_site_factor`, where all spins have their length (also
if the notation is spin-normalised). -/
theorem C23_ferro_exact {order : List Atom → List Atom} (hord : ∀ l, (order l).Perm l) (cell : M3 ℝ) (g : Atom → ℝ)
    (muB : ℝ) (s : St ℝ) (spin : Atom → ℝ) (d n : Bool) (e o : ℝ) (h : EnergyReady order s spin d n e o)
    (hm : s.magneticAtoms order ≠ []) (dir : Atom → V3 ℝ) (hu : ∀ a, IsUnit3 (dir a)) :
    ∃ E t x, EnergyObj.init order cell g s = (.ok E, t) ∧
      E.ferro muB t.cell (arr ((s.magneticAtoms order).map dir)) = .ok x ∧
      ∀ (Γ : Type) [AddCommGroup Γ] [Fintype Γ] (c : Config ℝ Γ), c.Repeats dir →
        Fintype.card Γ * x =
          (if d then 1 else 2) * e * c.bonds spin s.exchangeItems + e ^ 2 / o * c.sites spin s.onSiteItems := by
  obtain ⟨E, t, l1, l2, t1, hE⟩ := h.spec two_ne_zero hord cell g
  refine ⟨E, t, _, hE.init, ferro_arr E muB t.cell (by simp [hE.spins]) (by simpa [hE.spins] using hm), ?_⟩
  intro Γ _ _ c hc
  rw [map_normalize_unit (by simpa using fun a _ => hu a), ferroUnit, zeeman, hE.field]
  simp only [add_zero]
  exact InitSpec.sum two_ne_zero hE h.wf (St.getNotation_fields h.notation_).1 dir c hc

/-- The full statement of C23 for the Hamiltonians with `P`. -/
def C23_statement (P : Bool → Bool → ℝ → ℝ → Prop) : Prop :=
  ∀ (order : List Atom → List Atom), (∀ l, (order l).Perm l) → ∀ (cell : M3 ℝ) (g : Atom → ℝ) (muB : ℝ) (s : St ℝ)
    (spin : Atom → ℝ) (d n : Bool) (e o : ℝ), EnergyReady order s spin d n e o → P d n e o →
    s.magneticAtoms order ≠ [] → ∀ dir : Atom → V3 ℝ, (∀ a, IsUnit3 (dir a)) →
    ∃ E t x, EnergyObj.init order cell g s = (.ok E, t) ∧
      E.ferro muB t.cell (arr ((s.magneticAtoms order).map dir)) = .ok x ∧
      ∀ (Γ : Type) [AddCommGroup Γ] [Fintype Γ] (c : Config ℝ Γ), c.Repeats dir →
        s.physics c spin = some (Fintype.card Γ * x)

/-- **C23, what is provable.** `Energy(ham).ferro` is the classical energy per cell if the notation counts
bonds twice, is not spin-normalised, and the squares of the two factors are equal.

Missing for the full property: the other notations, for which it is false of the code, see
`C23_double_counting_false`, `C23_factors_false`, `C23_spin_normalized_false`. -/
theorem C23_ferro_partial : C23_statement fun d n e o => d = true ∧ n = false ∧ e ^ 2 = o ^ 2 := by
  rintro order hord cell g muB s spin d n e o h ⟨rfl, rfl, hsq⟩ hm dir hu
  obtain ⟨E, t, x, h1, h2, h3⟩ := C23_ferro_exact hord cell g muB s spin _ _ e o h hm dir hu
  refine ⟨E, t, x, h1, h2, fun Γ _ _ c hc => ?_⟩
  rw [St.physics, h.notation_]
  simp only [St.energy, h3 Γ c hc, classicalEnergy]
  have hw : weight false spin = spin := by funext a; simp [weight]
  have ho : e ^ 2 / o = o := by rw [hsq]; field_simp [h.ne]
  rw [hw, ho]
  simp

namespace FerroExample

open HistoryExample

/-- A Hamiltonian over the reals: one atom with spin 2, unit matrices. -/
noncomputable def st (d n : Bool) (e o : ℝ) (ex : PyDict Bond ℕ) (os : PyDict Atom ℕ) : St ℝ :=
  { cell := fun _ => 1, next := 3, atoms := [fe1], exch := ex, onSite := os, dc := some d, sn := some n,
    ef := some e, osf := some o, spin := fun _ => some 2, dist := fun _ => 1 }

/-- Both orientations of a bond. -/
def twice : PyDict Bond ℕ := [((fe1, fe1, (1, 0, 0)), 0), ((fe1, fe1, (-1, 0, 0)), 1)]

/-- One orientation of a bond. -/
def once : PyDict Bond ℕ := [((fe1, fe1, (1, 0, 0)), 0)]

theorem twice_ready (n : Bool) {e o : ℝ} (ho : o ≠ 0) :
    EnergyReady id (st true n e o twice [(fe1, 2)]) (fun _ => 2) true n e o := by
  refine ⟨⟨St.sound_of_lists ?_ ?_ ?_ ?_ ?_ ?_ ?_ ?_, fun _ b => ?_, (by simp [st])⟩, rfl, ho, fun _ _ => rfl⟩
  · show twice.keys.Nodup; decide
  · show (keys [(fe1, 2)]).Nodup; decide
  · show (twice.map Prod.snd ++ [(fe1, 2)].map Prod.snd).Nodup; decide
  · show ∀ r ∈ twice.map Prod.snd ++ [(fe1, 2)].map Prod.snd, r < 3; decide
  · show ∀ b ∈ twice.keys, b.1 ∈ [fe1] ∧ b.2.1 ∈ [fe1]; decide
  · show ∀ a ∈ keys [(fe1, 2)], a ∈ [fe1]; decide
  · show ∀ a ∈ [fe1], ∀ b ∈ [fe1], a.index = b.index → a = b; decide
  · show ∀ b ∈ twice.keys, b.mirror ≠ b; decide
  · have hv : ∀ b, (st true n e o twice [(fe1, 2)]).valE b = if b ∈ twice.keys then some 1 else none := by
      intro b
      by_cases hb : b ∈ twice.keys
      · obtain ⟨r, hr⟩ := mem_keys_iff.1 hb
        have : (st true n e o twice [(fe1, 2)]).exch.get? b = some r := hr
        rw [if_pos hb, St.valE, this]; rfl
      · rw [if_neg hb]; exact St.valE_eq_none_iff.2 hb
    have hm : ∀ b, b.mirror ∈ twice.keys ↔ b ∈ twice.keys := by
      have h1 : ∀ b ∈ twice.keys, b.mirror ∈ twice.keys := by decide
      exact fun b => ⟨fun h => by simpa [Bond.mirror_mirror] using h1 _ h, h1 b⟩
    rw [hv, hv]
    simp only [hm]
    split_ifs <;> simp

theorem once_ready (n : Bool) {e o : ℝ} (ho : o ≠ 0) :
    EnergyReady id (st false n e o once []) (fun _ => 2) false n e o := by
  refine ⟨⟨St.sound_of_lists ?_ ?_ ?_ ?_ ?_ ?_ ?_ ?_, fun h => by simp [st] at h, fun _ => ?_⟩, rfl, ho, fun _ _ => rfl⟩
  · show once.keys.Nodup; decide
  · show (keys ([] : PyDict Atom ℕ)).Nodup; decide
  · show (once.map Prod.snd ++ ([] : PyDict Atom ℕ).map Prod.snd).Nodup; decide
  · show ∀ r ∈ once.map Prod.snd ++ ([] : PyDict Atom ℕ).map Prod.snd, r < 3; decide
  · show ∀ b ∈ once.keys, b.1 ∈ [fe1] ∧ b.2.1 ∈ [fe1]; decide
  · show ∀ a ∈ keys ([] : PyDict Atom ℕ), a ∈ [fe1]; decide
  · show ∀ a ∈ [fe1], ∀ b ∈ [fe1], a.index = b.index → a = b; decide
  · show ∀ b ∈ once.keys, b.mirror ≠ b; decide
  · intro b hb
    have : b = (fe1, fe1, (1, 0, 0)) := by simpa [st, once] using hb
    subst this
    show _ ∉ once.keys
    decide

/-- All spins along z, supercell of one cell. -/
def cfg : Config ℝ Unit := ⟨0, fun _ _ => ![0, 0, 1]⟩

theorem cfg_repeats : cfg.Repeats fun _ => ![0, 0, 1] := fun _ _ => rfl

theorem z_unit : IsUnit3 ![0, 0, 1] := by simp [IsUnit3, dotProduct, Fin.sum_univ_three]

theorem bilin_z : bilin (![0, 0, 1] : V3 ℝ) 1 ![0, 0, 1] = 1 := by simp [bilin, Fin.sum_univ_three]

theorem atoms_twice (n : Bool) (e o : ℝ) : (st true n e o twice [(fe1, 2)]).magneticAtoms id = [fe1] := by
  show List.insertionSort (fun a b : Atom => a.index ≤ b.index)
    (List.dedup (twice.keys.flatMap (fun b => [b.1, b.2.1]) ++ keys [(fe1, 2)])) = _
  decide

theorem atoms_once (n : Bool) (e o : ℝ) : (st false n e o once []).magneticAtoms id = [fe1] := by
  show List.insertionSort (fun a b : Atom => a.index ≤ b.index)
    (List.dedup (once.keys.flatMap (fun b => [b.1, b.2.1]) ++ keys ([] : PyDict Atom ℕ))) = _
  decide

/-- The energy of the Hamiltonian. -/
theorem physics_twice (n : Bool) (e o : ℝ) : (st true n e o twice [(fe1, 2)]).physics cfg (fun _ => 2) =
    some (2 * e * (if n then 1 else 4) + o * (if n then 1 else 4)) := by
  simp [St.physics, St.getNotation, st, St.energy, classicalEnergy, St.exchangeItems, St.onSiteItems, Config.bonds,
    Config.sites, twice, Config.bond, Config.site, cfg, bilin_z, weight]
  split_ifs <;> ring

/-- The energy of the Hamiltonian. -/
theorem physics_once (n : Bool) (e o : ℝ) : (st false n e o once []).physics cfg (fun _ => 2) =
    some (e * (if n then 1 else 4)) := by
  simp [St.physics, St.getNotation, st, St.energy, classicalEnergy, St.exchangeItems, St.onSiteItems, Config.bonds,
    Config.sites, once, Config.bond, cfg, bilin_z, weight]
  split_ifs <;> ring

/-- The value of `ferro`. -/
theorem ferro_twice {P : Bool → Bool → ℝ → ℝ → Prop} (h : C23_statement P) (n : Bool) {e o : ℝ} (ho : o ≠ 0)
    (hP : P true n e o) : 2 * e * (if n then 1 else 4) + o * (if n then 1 else 4) = 8 * e + e ^ 2 / o * 4 := by
  have hr := twice_ready n (e := e) ho
  have hm : (st true n e o twice [(fe1, 2)]).magneticAtoms id ≠ [] := by rw [atoms_twice]; simp
  obtain ⟨E, t, x, h1, h2, h3⟩ := h id (fun _ => .refl _) 1 (fun _ => 2) 1 _ _ _ _ _ _ hr hP hm (fun _ => ![0, 0, 1])
    fun _ => z_unit
  obtain ⟨E', t', x', h1', h2', h3'⟩ := C23_ferro_exact (order := id) (fun _ => .refl _) 1 (fun _ => 2) 1 _ _ _ _ _ _ hr hm
    (fun _ => ![0, 0, 1]) fun _ => z_unit
  rw [h1] at h1'
  cases h1'
  rw [h2] at h2'
  cases h2'
  have h4 := h3 Unit cfg cfg_repeats
  rw [h3' Unit cfg cfg_repeats, physics_twice] at h4
  simp [St.exchangeItems, St.onSiteItems, Config.bonds, Config.sites, twice, Config.bond, Config.site, cfg, bilin_z,
    st] at h4
  cases n <;> simp at h4 ⊢ <;> linarith

theorem ferro_once {P : Bool → Bool → ℝ → ℝ → Prop} (h : C23_statement P) (n : Bool) {e o : ℝ} (ho : o ≠ 0)
    (hP : P false n e o) : e * (if n then 1 else 4) = 8 * e := by
  have hr := once_ready n (e := e) ho
  have hm : (st false n e o once []).magneticAtoms id ≠ [] := by rw [atoms_once]; simp
  obtain ⟨E, t, x, h1, h2, h3⟩ := h id (fun _ => .refl _) 1 (fun _ => 2) 1 _ _ _ _ _ _ hr hP hm (fun _ => ![0, 0, 1])
    fun _ => z_unit
  obtain ⟨E', t', x', h1', h2', h3'⟩ := C23_ferro_exact (order := id) (fun _ => .refl _) 1 (fun _ => 2) 1 _ _ _ _ _ _ hr hm
    (fun _ => ![0, 0, 1]) fun _ => z_unit
  rw [h1] at h1'
  cases h1'
  rw [h2] at h2'
  cases h2'
  have h4 := h3 Unit cfg cfg_repeats
  rw [h3' Unit cfg cfg_repeats, physics_once] at h4
  simp [St.exchangeItems, St.onSiteItems, Config.bonds, Config.sites, once, Config.bond, cfg, bilin_z, st] at h4
  cases n <;> simp at h4 ⊢ <;> linarith

end FerroExample

open FerroExample in
/-- **C23 is false of the code** if bonds are counted once: the bonds of the Energy object are the parameter
objects of the Hamiltonian, which `double_counting = previous_dc` doubles (energy.py 565-574). -/
theorem C23_double_counting_false : ¬ C23_statement fun d n e o => d = false ∧ n = false ∧ e = 1 ∧ o = 1 := by
  intro h
  have := ferro_once h false one_ne_zero ⟨rfl, rfl, rfl, rfl⟩
  norm_num at this

open FerroExample in
/-- **C23 is false of the code** for the factors 1/2 and 1 of the notation of magnopy: on-site terms are
weighted with `exchange_factor² / on_site_factor` (hamiltonian.py 1053, energy.py 1074-1083). -/
theorem C23_factors_false : ¬ C23_statement fun d n e o => d = true ∧ n = false ∧ e = 1 / 2 ∧ o = 1 := by
  intro h
  have := ferro_twice h false one_ne_zero ⟨rfl, rfl, rfl, rfl⟩
  norm_num at this

open FerroExample in
/-- **C23 is false of the code** for a spin-normalised notation: the spins are multiplied nevertheless
(energy.py 1076-1079). -/
theorem C23_spin_normalized_false : ¬ C23_statement fun d n e o => d = true ∧ n = true ∧ e = 1 ∧ o = 1 := by
  intro h
  have := ferro_twice h true one_ne_zero ⟨rfl, rfl, rfl, rfl⟩
  norm_num at this

open FerroExample in
/-- The hypotheses of `C23_ferro_partial` hold for a Hamiltonian with bonds and an on-site term, whose energy
is 12 per cell. -/
example : EnergyReady id (st true false 1 1 twice [(HistoryExample.fe1, 2)]) (fun _ => 2) true false 1 1 ∧
    (st true false 1 1 twice [(HistoryExample.fe1, 2)]).physics cfg (fun _ => 2) = some 12 :=
  ⟨twice_ready false one_ne_zero, by rw [physics_twice]; norm_num⟩

/-- **C23 (errors).** Without the exchange factor, without the spin of a magnetic atom or without the flag of
double counting, `Energy(ham)` raises and the Hamiltonian is as before. -/
theorem C23_errors {K : Type*} [Field K] [DecidableEq K] (order : List Atom → List Atom) (cell : M3 K) (g : Atom → K) (s : St K) :
    (s.ef = none → EnergyObj.init order cell g s = (.error .notationError, s)) ∧
    (s.ef ≠ none → (∃ a ∈ s.magneticAtoms order, s.spin a = none) → EnergyObj.init order cell g s = (.error .valueError, s)) ∧
    (s.ef ≠ none → (∀ a ∈ s.magneticAtoms order, s.spin a ≠ none) → s.dc = none →
      EnergyObj.init order cell g s = (.error .notationError, s)) := by
  have hmap : ∀ l : List Atom, (∃ a ∈ l, s.spin a = none) → mapAtoms s.spinOf l = .error .valueError := by
    intro l
    induction l with
    | nil => simp
    | cons b l ih =>
      rintro ⟨a, ha, h⟩
      cases hb : s.spin b with
      | none => simp [mapAtoms, St.spinOf, hb]
      | some x =>
        have : a ∈ l := by
          rcases List.mem_cons.1 ha with rfl | h'
          · rw [h] at hb; cases hb
          · exact h'
        simp [mapAtoms, St.spinOf, hb]
        rw [show mapAtoms s.spinOf l = .error .valueError from ih ⟨a, this, h⟩]
  have hmap' : ∀ l : List Atom, (∀ a ∈ l, s.spin a ≠ none) → ∃ xs, mapAtoms s.spinOf l = .ok xs := by
    intro l
    induction l with
    | nil => exact fun _ => ⟨[], rfl⟩
    | cons b l ih =>
      intro h
      obtain ⟨xs, hxs⟩ := ih fun a ha => h a (List.mem_cons_of_mem _ ha)
      obtain ⟨x, hx⟩ := Option.ne_none_iff_exists'.1 (h b List.mem_cons_self)
      exact ⟨x :: xs, by simp [mapAtoms, St.spinOf, hx, hxs]⟩
  refine ⟨fun h => by simp [EnergyObj.init, h], fun h h' => ?_, fun h h' h'' => ?_⟩
  · obtain ⟨x, hx⟩ := Option.ne_none_iff_exists'.1 h
    simp [EnergyObj.init, hx, hmap _ h']
  · obtain ⟨x, hx⟩ := Option.ne_none_iff_exists'.1 h
    obtain ⟨xs, hxs⟩ := hmap' _ h'
    simp [EnergyObj.init, hx, hxs, h'']

/-- **C23 (indices).** Every bond of a new Energy object refers to two of its spins. -/
theorem C23_indices {K : Type*} [Field K] [DecidableEq K] (h2 : (2 : K) ≠ 0) {order : List Atom → List Atom}
    (hord : ∀ l, (order l).Perm l) (cell : M3 K) (g : Atom → K) (s : St K) (spin : Atom → K) (d n : Bool) (e o : K)
    (h : EnergyReady order s spin d n e o) (E : EnergyObj K) (t : St K) (hE : EnergyObj.init order cell g s = (.ok E, t)) :
    E.gFactors.length = E.spins.length ∧ ∀ b ∈ E.bonds, b.1 < E.spins.length ∧ b.2.1 < E.spins.length := by
  obtain ⟨E', t', l1, l2, t1, hi⟩ := h.spec h2 hord cell g
  rw [hi.init] at hE
  cases hE
  rw [hi.gFactors, hi.spins, hi.bonds]
  refine ⟨by simp, fun b hb => ?_⟩
  obtain ⟨p, hp, rfl⟩ := List.mem_map.1 hb
  have := hi.atoms p hp
  simp only [bondOf, List.length_map]
  exact ⟨List.idxOf_lt_length_of_mem this.1, List.idxOf_lt_length_of_mem this.2⟩

/-! ### C24 -/

/-- **C24, exactly.** Creating an Energy object succeeds and leaves atoms, spins, notation and all on-site terms
with their matrices and parameter objects as they are.  If bonds are counted twice, then all bonds stay, with
their matrices and in their order.  If bonds are counted once, then the Hamiltonian has afterwards exactly the
canonical orientations of its bonds: bonds of this orientation with the same matrix, the others turned around
with the transposed matrix.  The energy of the bonds is the same in every configuration. -/
theorem C24_exact {K : Type*} [Field K] [DecidableEq K] (h2 : (2 : K) ≠ 0) {order : List Atom → List Atom}
    (hord : ∀ l, (order l).Perm l) (cell : M3 K) (g : Atom → K) (s : St K) (spin : Atom → K) (d n : Bool) (e o : K)
    (h : EnergyReady order s spin d n e o) :
    ∃ E t, EnergyObj.init order cell g s = (.ok E, t) ∧ t.onSiteItems = s.onSiteItems ∧ t.onSite = s.onSite ∧
      t.getNotation = s.getNotation ∧ t.atoms = s.atoms ∧ t.spin = s.spin ∧ t.WellFormed ∧
      (d = true → t.exchangeItems = s.exchangeItems) ∧
      (d = false → (∀ b ∈ t.exch.keys, Canonical b) ∧ ∀ b, Canonical b →
        (b ∈ s.exch.keys → t.valE b = s.valE b) ∧
        (b.mirror ∈ s.exch.keys → t.valE b = (s.valE b.mirror).map Matrix.transpose) ∧
        (b ∉ s.exch.keys → b.mirror ∉ s.exch.keys → t.valE b = none)) ∧
      ∀ (Γ : Type) [AddCommGroup Γ] [Fintype Γ] (c : Config K Γ) (w : Atom → K),
        c.bonds w t.exchangeItems = c.bonds w s.exchangeItems := by
  obtain ⟨E, t, l1, l2, t1, hE⟩ := h.spec h2 hord cell g
  have hd := (St.getNotation_fields h.notation_).1
  have h1 : t.dc = s.dc := (congrArg Ham.dc hE.ham :)
  have h3 : t.sn = s.sn := (congrArg Ham.sn hE.ham :)
  have h4 : t.ef = s.ef := (congrArg Ham.ef hE.ham :)
  have h5 : t.osf = s.osf := (congrArg Ham.osf hE.ham :)
  refine ⟨E, t, hE.init, hE.onSiteItems, (congrArg Ham.onSite hE.ham :), ?_,
    (congrArg Ham.atoms hE.ham :), (congrArg Ham.spin hE.ham :), hE.wf, ?_, ?_, ?_⟩
  · simp only [St.getNotation, h1, h3, h4, h5]
  · rintro rfl
    exact hE.exchangeItems (h.wf.wf_of_true hd)
  · rintro rfl
    refine ⟨hE.wf.once (h1.trans hd), fun b hb => ?_⟩
    have ht := hE.turned b
    rw [if_neg Bool.false_ne_true, if_pos ((keeps_iff b).2 hb)] at ht
    refine ⟨fun hm => ?_, fun hm => ?_, fun hm hm' => ?_⟩
    · rw [ht, St.oneE]
      obtain ⟨m, hm⟩ := Option.isSome_iff_exists.1 (St.isSome_valE_iff.2 hm)
      rw [hm, Option.some_or]
    · rw [ht, St.oneE]
      have := h.wf.single hd _ hm
      rw [Bond.mirror_mirror] at this
      rw [St.valE_eq_none_iff.2 this, Option.none_or]
    · rw [ht, St.oneE, St.valE_eq_none_iff.2 hm, St.valE_eq_none_iff.2 hm', Option.map_none, Option.none_or]
  · intro Γ _ _ c w
    -- switching double counting on gives the same bonds before and after
    obtain ⟨u, _, _, hu, _, hv, _⟩ := St.setDC_paired hE.wf.paired (h1.trans hd)
    rw [← St.setDC_paired_bonds h.wf hE.onWf h2 hd hE.onVal c w,
      ← St.setDC_paired_bonds hE.wf.paired hu h2 (h1.trans hd) hv c w]
    refine St.bonds_congr hu.keys hE.onWf.keys (fun b => ?_) c w
    rw [hv, hE.onVal]
    cases d with
    | true =>
      have e1 : ∀ b, t.valE b = s.valE b := fun b => by rw [hE.turned, if_pos rfl]
      simp only [St.dcMap, h1, e1]
    | false =>
      rw [St.dcMap_on hd, St.dcMap_on (h1.trans hd), hE.turned, hE.turned, if_neg Bool.false_ne_true,
        if_neg Bool.false_ne_true]
      by_cases hk : b ∈ s.exch.keys ∨ b.mirror ∈ s.exch.keys
      · have hmir := h.wf.keeps_mirror hk
        have h6 : s.oneE b.mirror = (s.oneE b).map Matrix.transpose := h.wf.oneE_mirror hd b
        have h7 : s.oneE b = (s.valE b).or ((s.valE b.mirror).map Matrix.transpose) := rfl
        rw [hmir, h6, h7]
        rcases hk with hk | hk
        · rw [St.valE_eq_none_iff.2 (h.wf.single hd b hk)]
          by_cases hb : St.keeps b = true
          · rw [hb]; cases s.valE b <;> simp
          · rw [Bool.not_eq_true] at hb; rw [hb]; cases s.valE b <;> simp
        · have := h.wf.single hd _ hk
          rw [Bond.mirror_mirror] at this
          rw [St.valE_eq_none_iff.2 this]
          by_cases hb : St.keeps b = true
          · rw [hb]; cases s.valE b.mirror <;> simp
          · rw [Bool.not_eq_true] at hb; rw [hb]; cases s.valE b.mirror <;> simp
      · rw [not_or] at hk
        simp [St.oneE, Bond.mirror_mirror, St.valE_eq_none_iff.2 hk.1, St.valE_eq_none_iff.2 hk.2]

/-- **C24, what is provable.** Creating an Energy object of a well-formed Hamiltonian with a complete notation
leaves atoms, spins, notation, all bonds with their matrices and all on-site terms with their matrices as
they are, in the same order; on-site terms even keep their parameter objects.

Missing for the full property: Hamiltonians that count bonds once and have some of them in the other
orientation (`C24_orientation_false`; `C24_exact` says what happens to them) and calls that raise
(`C24_exception_false`). -/
theorem C24_unchanged_partial {K : Type*} [Field K] [DecidableEq K] (h2 : (2 : K) ≠ 0) {order : List Atom → List Atom}
    (hord : ∀ l, (order l).Perm l) (cell : M3 K) (g : Atom → K) (s : St K) (spin : Atom → K) (d n : Bool) (e o : K)
    (h : EnergyReady order s spin d n e o) (hw : s.WellFormed) :
    ∃ E t, EnergyObj.init order cell g s = (.ok E, t) ∧ t.exchangeItems = s.exchangeItems ∧
      t.onSiteItems = s.onSiteItems ∧ t.onSite = s.onSite ∧ t.getNotation = s.getNotation ∧ t.atoms = s.atoms ∧
      t.spin = s.spin ∧ t.WellFormed := by
  obtain ⟨E, t, l1, l2, t1, hE⟩ := h.spec h2 hord cell g
  refine ⟨E, t, hE.init, hE.exchangeItems hw, hE.onSiteItems, (congrArg Ham.onSite hE.ham :), ?_,
    (congrArg Ham.atoms hE.ham :), (congrArg Ham.spin hE.ham :), hE.wf⟩
  have h1 : t.dc = s.dc := (congrArg Ham.dc hE.ham :)
  have h3 : t.sn = s.sn := (congrArg Ham.sn hE.ham :)
  have h4 : t.ef = s.ef := (congrArg Ham.ef hE.ham :)
  have h5 : t.osf = s.osf := (congrArg Ham.osf hE.ham :)
  simp only [St.getNotation, h1, h3, h4, h5]

/-- The full statement of C24 for Hamiltonians built by any history of calls (the bonds only). -/
def C24_statement : Prop :=
  ∀ (m : Mem ℚ) (atoms : List Atom) (sp : Atom → ℚ) (dist : Bond → ℚ) (hist : List (Op ℚ)) (s : St ℚ),
    runOps hist (St.empty m atoms (fun a => some (sp a)) dist) = s → s.Complete → (∀ a, sp a ≠ 0) →
    ∀ (order : List Atom → List Atom), (∀ l, (order l).Perm l) → ∀ (cell : M3 ℚ) (g : Atom → ℚ) (b : Bond),
      ((EnergyObj.init order cell g s).2.valE b).isSome = (s.valE b).isSome

open NotationExample HistoryExample in
/-- **C24 is false of the code** for a bond without double counting that is not in the canonical orientation:
it is replaced by its mirror. -/
theorem C24_orientation_false : ¬ C24_statement := by
  intro h
  have h1 := h ⟨fun _ => 0, 0⟩ [fe1] (fun _ => 5 / 2) (fun _ => 1) wrongSide _ rfl
    ⟨false, false, 1, 1, by decide +kernel, by norm_num, by norm_num⟩ (fun _ => by norm_num) id (fun _ => .refl _) 1
    (fun _ => 2) (fe1, fe2, (-1, 0, 0))
  revert h1
  decide +kernel

namespace FerroExample
open HistoryExample

/-- No double counting, a canonical bond, no on-site factor. -/
def noFactor : List (Op ℚ) :=
  [.setDC false, .setSN false, .setEF 1, .addExchange (.atom fe1) (.atom fe2) (1, 0, 0) (.fresh mB)]

end FerroExample

open FerroExample HistoryExample in
/-- **C24, exceptions.** If the on-site factor is not set, `Energy(ham)` raises after it switched double
counting on, and leaves it on: the notation has changed and the mirror bond is there. -/
theorem C24_exception_false :
    ((EnergyObj.init id 1 (fun _ => 2) (runOps noFactor s0)).1 matches .error .notationError) = true ∧
    (runOps noFactor s0).dc = some false ∧ (runOps noFactor s0).exch.length = 1 ∧
    (EnergyObj.init id 1 (fun _ => 2) (runOps noFactor s0)).2.dc = some true ∧
    (EnergyObj.init id 1 (fun _ => 2) (runOps noFactor s0)).2.exch.length = 2 := by
  refine ⟨?_, ?_, ?_, ?_, ?_⟩ <;> decide +kernel

open NotationExample HistoryExample DictExample in
/-- The hypotheses of `C24_exact` hold for the Hamiltonian of `C24_orientation_false`, whose only bond is turned
around. -/
example : EnergyReady id (runOps wrongSide s0) (fun _ => 5 / 2) false false 1 1 ∧
    (runOps wrongSide s0).exch.keys = [(fe1, fe2, (-1, 0, 0))] ∧
    (EnergyObj.init id 1 (fun _ => 2) (runOps wrongSide s0)).2.exch.keys = [(fe2, fe1, (1, 0, 0))] := by
  refine ⟨⟨⟨St.sound_of_lists ?_ ?_ ?_ ?_ ?_ ?_ ?_ ?_, fun h => ?_, ?_⟩, ?_, ?_, ?_⟩, ?_, ?_⟩
  on_goal 9 => exact absurd h (by decide +kernel)
  all_goals first | decide +kernel | (intro _; decide +kernel)

open NotationExample HistoryExample DictExample in
/-- The hypotheses of C24 hold for `s1` (notation tb2j, four bonds, one on-site term). -/
example : EnergyReady id s1 (fun _ => 5 / 2) true true (-1) (-1) :=
  ⟨s1_wf.1.paired, by decide +kernel, by norm_num, by decide +kernel⟩

open NotationExample HistoryExample DictExample in
/-- With double counting, `Energy(ham)` stores new parameter objects for the bonds: a reference to `ham[bond]`
taken before is no longer part of the Hamiltonian. -/
example : (EnergyObj.init id 1 (fun _ => 2) s1).2.exch.keys = s1.exch.keys ∧
    ∀ p ∈ s1.exch, ∀ q ∈ (EnergyObj.init id 1 (fun _ => 2) s1).2.exch, p.2 ≠ q.2 := by
  decide +kernel

/-! ### C25 -/

/-- The energies of an Energy object only depend on the objects of its bonds. -/
theorem energies_congr (E : EnergyObj ℝ) (muB : ℝ) {c c' : ℕ → M3 ℝ} (h : ∀ b ∈ E.bonds, c b.2.2.2 = c' b.2.2.2)
    (so cone q : Param.ArrayLike ℝ) : E.ferro muB c so = E.ferro muB c' so ∧
      E.antiferro muB c so cone q = E.antiferro muB c' so cone q ∧ E.spiral muB c so cone q = E.spiral muB c' so cone q := by
  have key : ∀ (C : V3 ℝ → M3 ℝ → M3 ℝ) (e : List (V3 ℝ)), E.bondSum C c e = E.bondSum C c' e := by
    intro C e
    unfold bondSum
    congr 1
    exact List.map_congr_left fun ⟨i, j, d, J⟩ hb => by simp only [h _ hb]
  refine ⟨?_, ?_, ?_⟩
  · simp only [ferro, ferroUnit, key]
  · simp only [antiferro, antiferroUnit, key]
  · simp only [spiral, spiralUnit, key]

/-- The parameter objects that a program can have a reference to when the state of the Hamiltonian went from
`s` to `t` in a library call: those that existed before, those of the Hamiltonian, and later ones. -/
def Visible {K : Type*} [Field K] (s t : St K) (r : ℕ) : Prop :=
  r < s.next ∨ t.next ≤ r ∨ (∃ b, t.exch.get? b = some r) ∨ ∃ a, t.onSite.get? a = some r

/-- **C25, what is provable.** If the Hamiltonian counts bonds twice, no later program (any calls on the
Hamiltonian, any in-place change of any parameter object it has a reference to) changes an energy of the
Energy object, for any field.

Missing for the full property: Hamiltonians that count bonds once, for which it is false of the code, see
`C25_shared_false`. -/
theorem C25_independent_partial {order : List Atom → List Atom} (hord : ∀ l, (order l).Perm l) (cell : M3 ℝ)
    (g : Atom → ℝ) (s : St ℝ) (spin : Atom → ℝ) (n : Bool) (e o : ℝ) (h : EnergyReady order s spin true n e o)
    (E : EnergyObj ℝ) (t : St ℝ) (hE : EnergyObj.init order cell g s = (.ok E, t)) (ops : List (Op ℝ))
    (hops : ∀ op ∈ ops, ∀ r ∈ op.refs, Visible s t r) (field : Option (V3 ℝ)) (muB : ℝ) (so cone q : Param.ArrayLike ℝ) :
    { E with field := field }.ferro muB (runOps ops t).cell so = { E with field := field }.ferro muB t.cell so ∧
    { E with field := field }.antiferro muB (runOps ops t).cell so cone q =
      { E with field := field }.antiferro muB t.cell so cone q ∧
    { E with field := field }.spiral muB (runOps ops t).cell so cone q =
      { E with field := field }.spiral muB t.cell so cone q := by
  obtain ⟨E', t', l1, l2, t1, hi⟩ := h.spec two_ne_zero hord cell g
  rw [hi.init] at hE
  cases hE
  have hoff : t.Off False (fun r => ∃ p ∈ l1 ++ l2, p.2 = r) t.cell := by
    refine ⟨?_, ?_, ?_, fun _ _ => rfl⟩
    · rintro x ⟨p, hp, rfl⟩; exact (hi.refs rfl p hp).2.1
    · rintro ⟨b, r⟩ hb
      refine ⟨?_, False.elim⟩
      rintro ⟨p, hp, hr⟩
      exact (hi.refs rfl p hp).2.2.1 b (by rw [hr]; exact get?_of_mem hi.wf.keys.exch hb)
    · rintro ⟨b, r⟩ hb
      refine ⟨?_, False.elim⟩
      rintro ⟨p, hp, hr⟩
      exact (hi.refs rfl p hp).2.2.2 b (by rw [hr]; exact get?_of_mem hi.wf.keys.site hb)
  have hrun := hoff.runOps ops fun op hop r hr => by
    rintro ⟨p, hp, rfl⟩
    have hx := hi.refs rfl p hp
    rcases hops op hop _ hr with h1 | h1 | ⟨b, h1⟩ | ⟨a, h1⟩
    · omega
    · omega
    · exact hx.2.2.1 b h1
    · exact hx.2.2.2 a h1
  refine energies_congr { E with field := field } muB (fun b hb => ?_) so cone q
  have hb' : b ∈ E.bonds := hb
  rw [hi.bonds] at hb'
  obtain ⟨p, hp, rfl⟩ := List.mem_map.1 hb'
  exact hrun.cell _ ⟨p, hp, rfl⟩

/-- The full statement of C25 for Hamiltonians with the flag `d` of double counting. -/
def C25_statement (d : Bool) : Prop :=
  ∀ (order : List Atom → List Atom), (∀ l, (order l).Perm l) → ∀ (cell : M3 ℝ) (g : Atom → ℝ) (s : St ℝ)
    (spin : Atom → ℝ) (n : Bool) (e o : ℝ), EnergyReady order s spin d n e o → ∀ (E : EnergyObj ℝ) (t : St ℝ),
    EnergyObj.init order cell g s = (.ok E, t) → ∀ ops : List (Op ℝ), (∀ op ∈ ops, ∀ r ∈ op.refs, Visible s t r) →
    ∀ (muB : ℝ) (so : Param.ArrayLike ℝ), E.ferro muB (runOps ops t).cell so = E.ferro muB t.cell so

open FerroExample HistoryExample in
/-- **C25 is false of the code** if bonds are counted once: the Energy object has the parameter objects of the
Hamiltonian, and a change of such an object changes its energy. -/
theorem C25_shared_false : ¬ C25_statement false := by
  intro h
  have hr := once_ready false (e := 1) one_ne_zero
  obtain ⟨E, t, l1, l2, t1, hi⟩ := hr.spec two_ne_zero (order := id) (fun _ => .refl _) 1 (fun _ => 2)
  have h1 := h id (fun _ => .refl _) 1 (fun _ => 2) _ _ _ _ _ hr E t hi.init [.writeParam 0 0]
    (fun op hop r hr => Or.inl (by
      simp only [List.mem_singleton] at hop
      subst hop
      simp only [Op.refs, List.mem_singleton] at hr
      subst hr
      decide)) 1 (arr [![0, 0, 1]])
  have ht1 : t1.exch = [((fe1, fe1, (1, 0, 0)), 0), ((fe1, fe1, (-1, 0, 0)), 3)] := by
    have := congrArg (fun r => r.st.exch) hi.on
    exact this.symm.trans rfl
  have hc1 : t1.cell 0 = (1 / 2 : ℝ) • (1 : M3 ℝ) := by
    have := (St.setDC_cell hr.wf.keys hr.wf.refer hr.wf.noShare hi.on (r := 0) (by decide)).1
      ⟨(fe1, fe1, (1, 0, 0)), rfl⟩
    rw [this]
    simp [St.dcFactor, st]
  have hl1 : l1 = [] := by
    have := congrArg List.length hi.sites
    simpa [St.onSiteItems, st] using this
  have hb := hi.bonds
  rw [hl1, hi.stored, ht1, atoms_once] at hb
  have hsp := hi.spins
  rw [atoms_once] at hsp
  have hx := hi.exch
  rw [hi.stored] at hx
  simp [St.exchangeItems, ht1] at hx
  rw [ferro_arr E 1 _ (by simp [hsp]) (by simp [hsp]), ferro_arr E 1 _ (by simp [hsp]) (by simp [hsp])] at h1
  rw [map_normalize_unit (by simpa using z_unit)] at h1
  have hw0 : (runOps [Op.writeParam 0 0] t).cell 0 = 0 := by simp [runOps, Op.step, St.write]
  have hw3 : (runOps [Op.writeParam 0 0] t).cell 3 = t.cell 3 := by simp [runOps, Op.step, St.write]
  have hz : einsum3 ![0, 0, 1] (t.cell 0) ![0, 0, 1] = 1 := by
    rw [hx.1, hc1]
    simp [einsum3, Fin.sum_univ_three]
  simp [ferroUnit, zeeman, hi.field, bondSum, hb, bondOf, hsp, hi.factor, hw0, hw3, hz] at h1
  simp [einsum3] at h1

open FerroExample HistoryExample in
/-- Also an assignment to the notation changes it: the same sum over the bonds of the Energy object before and
after `ham.exchange_factor = 2`. -/
example :
    let s : St ℚ := runOps [.setNotation (.seq [0, 0, 1]), .addExchange (.atom fe1) (.atom fe1) (1, 0, 0) (.fresh mB)] s0
    (EnergyObj.init id 1 (fun _ => 2) s).1.toOption.map (fun E =>
      (E.ferroUnit 1 (EnergyObj.init id 1 (fun _ => 2) s).2.cell [![0, 0, 1]],
        E.ferroUnit 1 (runOps [.setEF 2] (EnergyObj.init id 1 (fun _ => 2) s).2).cell [![0, 0, 1]])) =
    some (75 / 2, 225 / 8) := by
  decide +kernel

open FerroExample in
/-- The hypotheses of `C25_independent_partial` hold, with operations that name an object: the first bond of
the Hamiltonian at its creation. -/
example : ∃ (E : EnergyObj ℝ) (t : St ℝ),
    EnergyObj.init id 1 (fun _ => 2) (st true false 1 1 twice [(HistoryExample.fe1, 2)]) = (.ok E, t) ∧
    ∀ op ∈ [Op.setEF (3 : ℝ), .writeParam 0 0], ∀ r ∈ op.refs,
      Visible (st true false 1 1 twice [(HistoryExample.fe1, 2)]) t r := by
  obtain ⟨E, t, l1, l2, t1, hi⟩ := (twice_ready false (e := 1) one_ne_zero).spec two_ne_zero (order := id)
    (fun _ => .refl _) 1 (fun _ => 2)
  refine ⟨E, t, hi.init, fun op hop r hr => Or.inl ?_⟩
  simp only [List.mem_cons, List.not_mem_nil, or_false] at hop
  rcases hop with rfl | rfl
  · simp [Op.refs] at hr
  · simp only [Op.refs, List.mem_singleton] at hr
    subst hr
    decide

end Magnopy
