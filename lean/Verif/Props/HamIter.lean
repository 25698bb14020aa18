import Verif.Lemmas.Iter
import Verif.Spec.Energy
import Verif.Props.HamDict
import Mathlib.Tactic.Ring
import Mathlib.Tactic.FieldSimp
import Mathlib.Algebra.Group.PUnit

/-!
# Properties C21 and C22: iterating over the parameters
-/

set_option autoImplicit false

set_option linter.unusedSectionVars false

namespace Magnopy

open PyDict

variable {K : Type*} [Field K]

/-- The list shows every entry of the dictionary exactly once, in insertion order. -/
def ListsOnce {κ : Type*} [DecidableEq κ] (l : List (κ × ℕ)) (d : PyDict κ ℕ) : Prop :=
  l.map Prod.fst = d.keys ∧ (l.map Prod.fst).Nodup ∧ ∀ k r, (k, r) ∈ l ↔ d.get? k = some r

/-- **C21 (`exchange`).** A loop over `ham.exchange` terminates without an exception and sees every stored
bond with its parameter object exactly once, in insertion order; their number is the length of the
iterator. -/
theorem C21_exchange (s : St K) (hs : s.KeysNodup) :
    ∃ l t, Visits DictIter.next (DictIter.init s.exch) l t ∧ ListsOnce l s.exch ∧
      l.length = (DictIter.init s.exch).length ∧
      ∀ l' t', Visits DictIter.next (DictIter.init s.exch) l' t' → l' = l :=
  ⟨_, _, DictIter.visits s.exch hs.exch, ⟨rfl, hs.exch, fun _ _ => mem_iff_get? hs.exch⟩, rfl,
    fun _ _ h => (h.unique (DictIter.visits s.exch hs.exch)).1⟩

/-- **C21 (`on_site`).** -/
theorem C21_on_site (s : St K) (hs : s.KeysNodup) :
    ∃ l t, Visits DictIter.next (DictIter.init s.onSite) l t ∧ ListsOnce l s.onSite ∧
      l.length = (DictIter.init s.onSite).length ∧
      ∀ l' t', Visits DictIter.next (DictIter.init s.onSite) l' t' → l' = l :=
  ⟨_, _, DictIter.visits s.onSite hs.site, ⟨rfl, hs.site, fun _ _ => mem_iff_get? hs.site⟩, rfl,
    fun _ _ h => (h.unique (DictIter.visits s.onSite hs.site)).1⟩

/-- **C21 (`exchange_like`).** A loop over `ham.exchange_like` terminates without an exception: first the
on-site terms in insertion order, as bonds `(a, a, (0, 0, 0))` with new parameter objects that hold
`exchange_factor / on_site_factor` times the stored matrix, then the stored bonds with the stored objects;
their number is the length of the iterator; the Hamiltonian and the existing objects are untouched. -/
theorem C21_exchange_like [DecidableEq K] (s : St K) (hs : s.KeysNodup) (ha : s.Alloc) (ef osf : K)
    (he : s.ef = some ef) (ho : s.osf = some osf) (h0 : osf ≠ 0) :
    ∃ it, LikeIter.init s = .ok it ∧ ∃ l1 l2 it' t, Visits LikeIter.next (it, s) (l1 ++ l2) (it', t) ∧
      (l1 ++ l2).length = it.len ∧
      l1.map (fun p => (p.1, t.cell p.2)) = s.onSiteItems.map (fun p => ((p.1, p.1, (0, 0, 0)), (ef / osf) • p.2)) ∧
      (∀ p ∈ l1, s.next ≤ p.2) ∧ ListsOnce l2 s.exch ∧
      t.toHam = s.toHam ∧ (∀ q < s.next, t.cell q = s.cell q) ∧
      ∀ l' p', Visits LikeIter.next (it, s) l' p' → l' = l1 ++ l2 := by
  have hinit : LikeIter.init s = .ok ⟨s.onSite.length, s.onSite, s.onSite.keys, 0, s.exch.length, s.exch,
      s.exch.keys, 0, ef / osf⟩ := by
    simp [LikeIter.init, he, ho, St.ratio, h0]
  obtain ⟨it', hv⟩ := LikeIter.visits_aux1 s (ef / osf) s.onSite.length s.onSite s.exch s.exch.length s.onSite
    (fun p hp => get?_of_mem hs.site (k := p.1) (v := p.2) hp) s.exch
    (fun p hp => get?_of_mem hs.exch (k := p.1) (v := p.2) hp) (fun h => List.length_pos_of_ne_nil h) 0 (by simp)
  have hf := LikeIter.heap_frame (ef / osf) s.onSite s
  refine ⟨_, hinit, LikeIter.siteItems s.onSite s.next, s.exch, it', _, hv, ?_, ?_, ?_,
    ⟨rfl, hs.exch, fun _ _ => mem_iff_get? hs.exch⟩, hf.1, hf.2.2, fun _ _ h => (h.unique hv).1⟩
  · rw [List.length_append, LikeIter.siteItems_length]; rfl
  · rw [LikeIter.siteItems_cells _ _ _ (fun p hp => ha.site p.1 p.2 (get?_of_mem hs.site hp))]
    unfold St.onSiteItems
    rw [List.map_map]
    apply List.map_congr_left
    intro p _
    simp only [Function.comp, Prod.mk.injEq, true_and]
    ext i j
    simp [Param.mulNum, mul_comm]
  · generalize s.next = n
    suffices ∀ (l : List (Atom × ℕ)) (m : ℕ), n ≤ m → ∀ p ∈ LikeIter.siteItems l m, n ≤ p.2 from this _ _ (le_refl _)
    intro l
    induction l with
    | nil => intro m _ p hp; cases hp
    | cons q l ih =>
      intro m hm p hp
      rcases List.mem_cons.1 hp with rfl | hp
      · exact hm
      · exact ih (m + 1) (by omega) p hp

/-- **C21 (`exchange_like`, errors).** Without the factors there is no iterator. -/
theorem C21_exchange_like_errors [DecidableEq K] (s : St K) :
    ((s.ef = none ∨ s.osf = none) → LikeIter.init s = .error .notationError) ∧
    (s.ef ≠ none → s.osf = some 0 → LikeIter.init s = .error .zeroDivision) := by
  constructor
  · rintro (h | h)
    · simp [LikeIter.init, h]
    · cases he : s.ef <;> simp [LikeIter.init, h, he]
  · intro h1 h2
    cases he : s.ef with
    | none => exact absurd he h1
    | some e => simp [LikeIter.init, he, h2, St.ratio]

/-! ### C22 -/

theorem bilin_smul (x : K) (u : V3 K) (J : M3 K) (v : V3 K) : bilin u (x • J) v = x * bilin u J v := by
  simp only [bilin, Matrix.smul_apply, smul_eq_mul, Finset.mul_sum]
  refine Finset.sum_congr rfl fun i _ => Finset.sum_congr rfl fun j _ => by ring

namespace Config

variable {Γ : Type*} [AddCommGroup Γ] [Fintype Γ]

theorem bond_smul (c : Config K Γ) (b : Bond) (x : K) (J : M3 K) : c.bond b (x • J) = x * c.bond b J := by
  simp only [bond, bilin_smul, Finset.mul_sum]

theorem site_smul (c : Config K Γ) (a : Atom) (x : K) (J : M3 K) : c.site a (x • J) = x * c.site a J := by
  simp only [site, bilin_smul, Finset.mul_sum]

theorem bond_self (c : Config K Γ) (a : Atom) (J : M3 K) : c.bond (a, a, (0, 0, 0)) J = c.site a J := by
  have : c.τ ((0, 0, 0) : Cell) = 0 := map_zero c.τ
  simp [bond, site, this]

theorem bonds_append (c : Config K Γ) (w : Atom → K) (l l' : List (Bond × M3 K)) :
    c.bonds w (l ++ l') = c.bonds w l + c.bonds w l' := by
  simp [bonds]

theorem bonds_sites (c : Config K Γ) (w : Atom → K) (x : K) (l : List (Atom × M3 K)) :
    c.bonds w (l.map fun p => ((p.1, p.1, (0, 0, 0)), x • p.2)) = x * c.sites w l := by
  induction l with
  | nil => simp [bonds, sites]
  | cons p l ih =>
    simp only [bonds, sites, List.map_cons, List.sum_cons, List.map_map] at ih ⊢
    rw [ih, bond_smul, bond_self]
    ring

end Config

/-- The items `(bond, matrix)` that a loop over `exchange_like` sees, read when the loop has ended. -/
def LikeItems [DecidableEq K] (s : St K) (items : List (Bond × M3 K)) : Prop :=
  ∃ it l it' t, LikeIter.init s = .ok it ∧ Visits LikeIter.next (it, s) l (it', t) ∧
    items = l.map fun p => (p.1, t.cell p.2)

/-- **C22, exact value.** `exchange_factor · Σ exchange_like` weights the on-site terms with
`exchange_factor² / on_site_factor` (hamiltonian.py 1053), for every supercell and configuration.
Hence it is the energy of the Hamiltonian iff the squares of the factors are equal or the on-site energy
of the configuration vanishes. -/
theorem C22_exchange_like_sum_partial [DecidableEq K] {Γ : Type*} [AddCommGroup Γ] [Fintype Γ] (s : St K)
    (hs : s.KeysNodup) (ha : s.Alloc) (ef osf : K)
    (he : s.ef = some ef) (ho : s.osf = some osf) (h0 : osf ≠ 0) (items : List (Bond × M3 K))
    (hi : LikeItems s items) (c : Config K Γ) (w : Atom → K) :
    ef * c.bonds w items = ef * c.bonds w s.exchangeItems + ef ^ 2 / osf * c.sites w s.onSiteItems ∧
    (ef * c.bonds w items = classicalEnergy c w ef osf s.exchangeItems s.onSiteItems ↔
      ef ^ 2 = osf ^ 2 ∨ c.sites w s.onSiteItems = 0) := by
  obtain ⟨it, l, it', t, h1, h2, rfl⟩ := hi
  obtain ⟨it₀, h1', l1, l2, it'', t', hv, _, h3, _, h4, _, h6, h5⟩ := C21_exchange_like s hs ha ef osf he ho h0
  rw [h1] at h1'
  cases h1'
  have e := h2.unique hv
  obtain ⟨rfl, e2⟩ := e
  cases e2
  have hl2 : l2.map (fun p => (p.1, t.cell p.2)) = s.exchangeItems := by
    have : l2 = s.exch := by
      have hk := h4.1
      refine List.ext_getElem (by simpa [keys] using congrArg List.length hk) fun n h h' => ?_
      have h7 := (h4.2.2 (l2[n].1) (l2[n].2)).1 (List.getElem_mem h)
      have h8 : l2[n].1 = s.exch[n].1 := by
        have : (l2.map Prod.fst)[n]'(by simpa using h) = s.exch.keys[n]'(by simpa [keys] using h') := by
          simp only [hk]
        simpa [keys] using this
      have h9 : s.exch.get? s.exch[n].1 = some s.exch[n].2 := get?_of_mem hs.exch (List.getElem_mem h')
      rw [h8, h9] at h7
      exact Prod.ext h8 (Option.some.inj h7).symm
    rw [this]
    unfold St.exchangeItems
    apply List.map_congr_left
    intro p hp
    rw [h6 _ (ha.exch p.1 p.2 (get?_of_mem hs.exch hp))]
  have key : ef * c.bonds w ((l1 ++ l2).map fun p => (p.1, t.cell p.2)) =
      ef * c.bonds w s.exchangeItems + ef ^ 2 / osf * c.sites w s.onSiteItems := by
    rw [List.map_append, Config.bonds_append, h3, hl2, Config.bonds_sites]
    ring
  refine ⟨key, ?_⟩
  rw [key, classicalEnergy, add_right_inj, mul_eq_mul_right_iff, div_eq_iff h0, ← sq]

/-- The full statement of C22. -/
def C22_statement (K : Type) [Field K] [DecidableEq K] : Prop :=
  ∀ (Γ : Type) [AddCommGroup Γ] [Fintype Γ] (s : St K), s.KeysNodup → s.Alloc → ∀ ef osf : K, s.ef = some ef → s.osf = some osf → ef ≠ 0 → osf ≠ 0 →
    ∀ items, LikeItems s items → ∀ (c : Config K Γ) (w : Atom → K),
      ef * c.bonds w items = classicalEnergy c w ef osf s.exchangeItems s.onSiteItems

namespace IterExample

open HistoryExample

/-- Notation "magnopy" (factors 1/2 and 1), one bond and one on-site term. -/
def s3 : St ℚ := runOps [.setNotation (.str "magnopy"), .addExchange (.atom fe1) (.atom fe2) (1, 0, 0) (.fresh mA),
  .addOnSite (.atom fe1) (.fresh mB)] s0

theorem s3_inv : s3.Inv := runOps_inv _ s0 (St.inv_empty _ _ _ _)
theorem s3_alloc : s3.Alloc := St.alloc_of_all (by decide +kernel) (by decide +kernel)

/-- All spins along z, supercell of one cell. -/
def cfg : Config ℚ Unit := ⟨0, fun _ _ => ![0, 0, 1]⟩

end IterExample

open IterExample in
/-- **C22 is false of the code**, already in the default notation of magnopy with one on-site term. -/
theorem C22_exchange_like_false : ¬ C22_statement ℚ := by
  intro h
  obtain ⟨it, h1, l1, l2, it', t, hv, _⟩ := C21_exchange_like s3 s3_inv.nodup s3_alloc (1 / 2) 1
    (by decide +kernel) (by decide +kernel) one_ne_zero
  have hi : LikeItems s3 ((l1 ++ l2).map fun p => (p.1, t.cell p.2)) := ⟨it, _, it', t, h1, hv, rfl⟩
  have h2 := h Unit s3 s3_inv.nodup s3_alloc (1 / 2) 1 (by decide +kernel) (by decide +kernel) (by norm_num) one_ne_zero
    _ hi cfg (fun _ => 1)
  rw [(C22_exchange_like_sum_partial s3 s3_inv.nodup s3_alloc (1 / 2) 1 (by decide +kernel) (by decide +kernel)
    one_ne_zero _ hi cfg (fun _ => 1)).2] at h2
  rcases h2 with h2 | h2
  · norm_num at h2
  · have : cfg.sites (fun _ => 1) s3.onSiteItems = 3 := by decide +kernel
    rw [this] at h2
    norm_num at h2

open IterExample HistoryExample DictExample in
/-- Hypotheses of C21 and C22: the state `s1` (notation tb2j: both factors −1, so C22 holds there). -/
example : s1.KeysNodup ∧ s1.Alloc ∧ s1.ef = some (-1) ∧ s1.osf = some (-1) ∧ s1.exch.length = 4 ∧
    s1.onSite.length = 1 :=
  ⟨s1_inv.nodup, s1_alloc, by decide +kernel, by decide +kernel, by decide +kernel, by decide +kernel⟩

end Magnopy
