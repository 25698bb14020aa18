import Verif.Model.Energy
import Verif.Lemmas.Iter
import Verif.Lemmas.HamNotationDC
import Verif.Lemmas.HamRenote
import Verif.Spec.Notation

/-!
# Helper lemmas: the constructor of `Energy`
-/

set_option autoImplicit false

set_option linter.unusedSectionVars false

namespace Magnopy

open PyDict

section Dict

variable {α β : Type*} [DecidableEq α]

theorem PyDict.keys_setAll_prefix (d l : PyDict α β) : ∃ M, (d.setAll l).keys = d.keys ++ M := by
  induction l generalizing d with
  | nil => exact ⟨[], by simp [setAll]⟩
  | cons p l ih =>
    obtain ⟨M, hM⟩ := ih (d.set p.1 p.2)
    have e : d.setAll (p :: l) = (d.set p.1 p.2).setAll l := rfl
    rw [e, hM]
    by_cases h : p.1 ∈ d.keys
    · exact ⟨M, by rw [keys_set_of_mem h]⟩
    · exact ⟨p.1 :: M, by rw [keys_set_of_notMem h]; simp⟩

theorem PyDict.keys_delAll (d : PyDict α β) (hd : d.keys.Nodup) (l : List α) :
    (d.delAll l).keys = d.keys.filter fun k => k ∉ l := by
  induction l generalizing d with
  | nil => simp [delAll]
  | cons a l ih =>
    have e : d.delAll (a :: l) = (d.del a).delAll l := rfl
    rw [e, ih _ (nodup_del hd a), keys_del, hd.erase_eq_filter, List.filter_filter]
    apply List.filter_congr
    intro k _
    rw [Bool.eq_iff_iff]
    simp [and_comm]

theorem PyDict.get?_zipIdx (l : List α) (a : α) (h : a ∈ l) (n : ℕ) :
    PyDict.get? (l.zipIdx n) a = some (l.idxOf a + n) := by
  induction l generalizing n with
  | nil => simp at h
  | cons b l ih =>
    rw [List.zipIdx_cons, get?]
    by_cases hb : b = a
    · subst hb; simp
    · have : a ∈ l := by
        rcases List.mem_cons.1 h with h | h
        · exact absurd h.symm hb
        · exact h
      rw [if_neg hb, ih this, List.idxOf_cons_ne _ hb]
      congr 1; omega

end Dict

theorem collectIter_of_visits {σ α : Type*} {next : σ → Next σ α} {s t : σ} {l : List α} (h : Visits next s l t)
    {n : ℕ} (hn : l.length < n) : collectIter next n s = .ok (l, t) := by
  induction h generalizing n with
  | stop hs =>
    cases n with
    | zero => simp at hn
    | succ n => simp [collectIter, hs]
  | step hs _ ih =>
    cases n with
    | zero => simp at hn
    | succ n =>
      have := ih (n := n) (by simp at hn; omega)
      simp [collectIter, hs, this]

namespace St

variable {K : Type*} [Field K]

/-! ### `double_counting.setter` and the objects -/

theorem dcScaled_cell {s : St K} (hk : s.KeysNodup) (hs : s.NoShare) (new : Bool) (r : ℕ) :
    ((∃ b, s.exch.get? b = some r) → (s.dcScaled new).cell r = (dcFactor s.dc new : K) • s.cell r) ∧
      ((∀ b, s.exch.get? b ≠ some r) → (s.dcScaled new).cell r = s.cell r) := by
  unfold dcScaled
  simp only
  split_ifs with h
  · rw [foldl_wr_cell]
    constructor
    · rintro ⟨b, hb⟩
      have := filter_ref hk.exch hs.exch hb
      simp [this]
    · intro hb
      have := filter_ref_nil hk.exch hb
      simp [this]
  · have : (dcFactor s.dc new : K) = 1 := by
      rw [not_or] at h
      simp only [dcFactor, h.1, h.2, if_false]
    rw [this, one_smul]
    exact ⟨fun _ => rfl, fun _ => rfl⟩

/-- What `double_counting.setter` does to objects that exist already. -/
theorem setDC_cell {s t : St K} (hk : s.KeysNodup) (hr : s.Refer) (hs : s.NoShare) {new : Bool}
    (h : s.setDC new = .ok t) {r : ℕ} (hn : r < s.next) :
    ((∃ b, s.exch.get? b = some r) → t.cell r = (dcFactor s.dc new : K) • s.cell r) ∧
      ((∀ b, s.exch.get? b ≠ some r) → t.cell r = s.cell r) := by
  rw [setDC_eq hk] at h
  have hf := dcScaled_toHam s new
  have hd := dcScaled_cell hk hs new r
  have hr1 : (s.dcScaled new).Refer := Refer.congr (s := { s with dc := some new }) hf.1 ⟨hr.exch, hr.site⟩
  suffices t.cell r = (s.dcScaled new).cell r by rw [this]; exact hd
  cases new with
  | true =>
    simp only [if_true] at h
    rw [ensureDC_eq hr1] at h
    cases h
    exact (collectMirrors_spec (s.dcScaled true).exch (s.dcScaled true)).2.2.2.2 r (by rw [hf.2]; exact hn)
  | false =>
    simp only [Bool.false_eq_true, if_false] at h
    have hdc : (s.dcScaled false).dc ≠ some true := by rw [(congrArg Ham.dc hf.1 :)]; simp
    cases hrem : (s.dcScaled false).collectRemovals (s.dcScaled false).exch.keys with
    | error e => unfold ensureNoDC at h; rw [hrem] at h; cases h
    | ok rem =>
      rw [ensureNoDC_eq hdc hrem] at h
      cases h
      rfl

/-- What `double_counting.setter` does to the list of keys. -/
theorem setDC_keys {s t : St K} (hk : s.KeysNodup) (hr : s.Refer) {new : Bool} (h : s.setDC new = .ok t) :
    (new = true → ∃ M, t.exch.keys = s.exch.keys ++ M) ∧
      (new = false → t.exch.keys = s.exch.keys.filter fun b => b ∈ t.exch.keys) := by
  rw [setDC_eq hk] at h
  have hf := dcScaled_toHam s new
  have hex : (s.dcScaled new).exch = s.exch := (congrArg Ham.exch hf.1 :)
  have hr1 : (s.dcScaled new).Refer := Refer.congr (s := { s with dc := some new }) hf.1 ⟨hr.exch, hr.site⟩
  cases new with
  | true =>
    refine ⟨fun _ => ?_, by simp⟩
    simp only [if_true] at h
    rw [ensureDC_eq hr1] at h
    cases h
    rw [← hex]
    exact PyDict.keys_setAll_prefix _ _
  | false =>
    refine ⟨by simp, fun _ => ?_⟩
    simp only [Bool.false_eq_true, if_false] at h
    have hdc : (s.dcScaled false).dc ≠ some true := by rw [(congrArg Ham.dc hf.1 :)]; simp
    cases hrem : (s.dcScaled false).collectRemovals (s.dcScaled false).exch.keys with
    | error e => unfold ensureNoDC at h; rw [hrem] at h; cases h
    | ok rem =>
      rw [ensureNoDC_eq hdc hrem] at h
      cases h
      have e : ((s.dcScaled false).ensuredNoDC rem).exch.keys = s.exch.keys.filter fun k => k ∉ rem := by
        have : ((s.dcScaled false).ensuredNoDC rem).exch = s.exch.delAll rem := by
          unfold ensuredNoDC; rw [hex]
        rw [this, PyDict.keys_delAll _ hk.exch]
        apply List.filter_congr
        intro b _
        rw [Bool.eq_iff_iff]; simp
      rw [e]
      apply List.filter_congr
      intro b hb
      simp [List.mem_filter, hb]

theorem exchangeItems_ext {s t : St K} (hs : s.KeysNodup) (ht : t.KeysNodup) (hk : t.exch.keys = s.exch.keys)
    (hv : ∀ b, t.valE b = s.valE b) : t.exchangeItems = s.exchangeItems := by
  have key : ∀ u : St K, u.KeysNodup → u.exchangeItems = u.exch.keys.map fun b => (b, (u.valE b).getD 0) := by
    intro u hu
    unfold exchangeItems keys
    rw [List.map_map]
    apply List.map_congr_left
    intro p hp
    have := get?_of_mem hu.exch (k := p.1) (v := p.2) hp
    simp [valE, this]
  rw [key t ht, key s hs, hk]
  exact List.map_congr_left fun b _ => by rw [hv]

theorem onSiteItems_ext {s t : St K} (hs : s.KeysNodup) (ht : t.KeysNodup) (hk : t.onSite = s.onSite)
    (hv : ∀ b, t.valO b = s.valO b) : t.onSiteItems = s.onSiteItems := by
  have key : ∀ u : St K, u.KeysNodup → u.onSiteItems = u.onSite.keys.map fun b => (b, (u.valO b).getD 0) := by
    intro u hu
    unfold onSiteItems keys
    rw [List.map_map]
    apply List.map_congr_left
    intro p hp
    have := get?_of_mem hu.site (k := p.1) (v := p.2) hp
    simp [valO, this]
  rw [key t ht, key s hs, hk]
  exact List.map_congr_left fun b _ => by rw [hv]

/-- States that differ in objects nobody refers to. -/
theorem valE_congr {s t : St K} (h : t.toHam = s.toHam) (ha : s.Alloc) (hc : ∀ q < s.next, t.cell q = s.cell q)
    (b : Bond) : t.valE b = s.valE b := by
  unfold valE
  rw [(congrArg Ham.exch h :)]
  cases hb : s.exch.get? b with
  | none => rfl
  | some r => simp [hc r (ha.exch b r hb)]

theorem valO_congr {s t : St K} (h : t.toHam = s.toHam) (ha : s.Alloc) (hc : ∀ q < s.next, t.cell q = s.cell q)
    (b : Atom) : t.valO b = s.valO b := by
  unfold valO
  rw [(congrArg Ham.onSite h :)]
  cases hb : s.onSite.get? b with
  | none => rfl
  | some r => simp [hc r (ha.site b r hb)]

theorem WellFormed.grow {s t : St K} (hs : s.WellFormed) (h : t.toHam = s.toHam) (hn : s.next ≤ t.next)
    (hc : ∀ q < s.next, t.cell q = s.cell q) : t.WellFormed := by
  have e1 : t.exch = s.exch := congrArg Ham.exch h
  have e2 : t.onSite = s.onSite := congrArg Ham.onSite h
  have e3 : t.atoms = s.atoms := congrArg Ham.atoms h
  have e4 : t.dc = s.dc := congrArg Ham.dc h
  refine ⟨⟨hs.keys.congr h, hs.refer.congr h, ⟨?_, ?_⟩, hs.noShare.congr h, ?_, ?_⟩, ?_, ?_⟩
  · rw [e1]; exact fun b r hb => lt_of_lt_of_le (hs.alloc.exch b r hb) hn
  · rw [e2]; exact fun b r hb => lt_of_lt_of_le (hs.alloc.site b r hb) hn
  · rw [e3]; exact hs.index
  · rw [e1]; exact hs.noSelf
  · intro hd b
    rw [valE_congr h hs.alloc hc, valE_congr h hs.alloc hc]
    exact hs.twice (e4 ▸ hd) b
  · rw [e4, e1]; exact hs.once

end St

namespace EnergyObj

variable {K : Type*} [Field K]

theorem mapAtoms_ok {s : St K} {spin : Atom → K} (l : List Atom) (h : ∀ a ∈ l, s.spin a = some (spin a)) :
    mapAtoms s.spinOf l = .ok (l.map spin) := by
  induction l with
  | nil => rfl
  | cons a l ih =>
    simp [mapAtoms, St.spinOf, h a List.mem_cons_self, ih (fun b hb => h b (List.mem_cons_of_mem _ hb))]

/-- The entry of `_bonds` for an item of `exchange_like`. -/
def bondOf (atoms : List Atom) (cell : M3 K) (p : Bond × ℕ) : ℕ × ℕ × V3 K × ℕ :=
  (atoms.idxOf p.1.1, atoms.idxOf p.1.2.1, lattice cell p.1.2.2, p.2)

theorem bondsOf_ok {atoms : List Atom} (cell : M3 K) (l : List (Bond × ℕ))
    (h : ∀ p ∈ l, p.1.1 ∈ atoms ∧ p.1.2.1 ∈ atoms) :
    bondsOf (indices atoms) cell l = .ok (l.map (bondOf atoms cell)) := by
  induction l with
  | nil => rfl
  | cons p l ih =>
    obtain ⟨b, r⟩ := p
    have hb := h _ List.mem_cons_self
    have h1 : PyDict.get? (indices atoms) b.1 = some (atoms.idxOf b.1) := PyDict.get?_zipIdx atoms b.1 hb.1 0
    have h2 : PyDict.get? (indices atoms) b.2.1 = some (atoms.idxOf b.2.1) := PyDict.get?_zipIdx atoms b.2.1 hb.2 0
    simp [bondsOf, h1, h2, ih (fun q hq => h q (List.mem_cons_of_mem _ hq)), bondOf]

/-- The items that `Energy.__init__` sees. -/
def items (t1 : St K) : List (Bond × ℕ) := LikeIter.siteItems t1.onSite t1.next ++ t1.exch

end EnergyObj

namespace St

variable {K : Type*} [Field K]

/-- Switching double counting on while it is on replaces all exchange objects. -/
theorem setDC_refs_fresh {s t : St K} (hs : s.WellFormed) (hd : s.dc = some true) (h : s.setDC true = .ok t) (b : Bond)
    (r : ℕ) (hb : t.exch.get? b = some r) : s.next ≤ r := by
  rw [setDC_eq hs.keys] at h
  have hf := dcScaled_toHam s true
  have hex : (s.dcScaled true).exch = s.exch := (congrArg Ham.exch hf.1 :)
  have hr1 : (s.dcScaled true).Refer :=
    Refer.congr (s := { s with dc := some true }) hf.1 ⟨hs.refer.exch, hs.refer.site⟩
  have hk1 : (s.dcScaled true).KeysNodup :=
    KeysNodup.congr (s := { s with dc := some true }) hf.1 ⟨hs.keys.exch, hs.keys.site⟩
  simp only [if_true] at h
  rw [ensureDC_eq hr1] at h
  cases h
  rcases ensuredDC_ref_cases hk1 hb with h | h
  · rw [← hf.2]; exact h.1
  · exfalso
    apply h.2
    rw [hex] at h ⊢
    rw [← isSome_valE_iff, hs.twice hd b, Option.isSome_map, isSome_valE_iff]
    exact mem_keys_iff.2 ⟨r, h.1⟩

theorem dcMap_on {s : St K} (hd : s.dc = some false) (b : Bond) : dcMap s.dc true s.valE b =
    ((s.valE b.mirror).map fun m => (1 / 2 : K) • m.transpose).or ((s.valE b).map fun m => (1 / 2 : K) • m) := by
  have e : (dcFactor (some false) true : K) = 1 / 2 := by simp [dcFactor]
  simp only [dcMap, hd, e, if_true]

/-- Switching double counting on. -/
theorem setDC_paired {s : St K} (hs : s.Paired) {d : Bool} (hd : s.dc = some d) :
    ∃ t, s.setDC true = .ok t ∧ t.toHam = { s.toHam with dc := some true, exch := t.exch } ∧ t.WellFormed ∧
      s.next ≤ t.next ∧ (∀ b, t.valE b = dcMap s.dc true s.valE b) ∧ ∀ a, t.valO a = s.valO a := by
  cases d with
  | true => exact setDC_wf (hs.wf_of_true hd) hd true
  | false =>
    obtain ⟨t, h1, hh, hw, -, -⟩ := setDC_on hs hd
    obtain ⟨t', h1', -, -, -, -, -, hn, hv, hv'⟩ := setDC_ok hs.keys hs.refer hs.alloc hs.noShare true (fun e => by cases e)
    rw [h1] at h1'
    cases h1'
    exact ⟨t, h1, hh, hw, hn, hv, hv'⟩

/-- Switching double counting on keeps the energy of the bonds. -/
theorem setDC_paired_bonds {Γ : Type*} [AddCommGroup Γ] [Fintype Γ] {s t : St K} (hs : s.Paired) (ht : t.WellFormed)
    (h2 : (2 : K) ≠ 0) {d : Bool} (hd : s.dc = some d) (hv : ∀ b, t.valE b = dcMap s.dc true s.valE b) (c : Config K Γ)
    (w : Atom → K) : c.bonds w t.exchangeItems = c.bonds w s.exchangeItems := by
  cases d with
  | true => exact setDC_bonds (hs.wf_of_true hd) ht h2 hd hv c w
  | false => exact setDC_on_bonds hs ht.keys h2 hd (fun b => by rw [hv, dcMap_on hd]) c w

/-- The energy of the bonds only depends on their matrices. -/
theorem bonds_congr {Γ : Type*} [AddCommGroup Γ] [Fintype Γ] {s t : St K} (hs : s.KeysNodup) (ht : t.KeysNodup)
    (h : ∀ b, s.valE b = t.valE b) (c : Config K Γ) (w : Atom → K) :
    c.bonds w s.exchangeItems = c.bonds w t.exchangeItems := by
  have hk : s.exch.keys.toFinset = t.exch.keys.toFinset := by
    ext b
    rw [List.mem_toFinset, List.mem_toFinset, ← isSome_valE_iff, ← isSome_valE_iff, h]
  rw [bonds_eq_sum hs, bonds_eq_sum ht, hk]
  simp only [h]

end St

namespace EnergyObj

variable {K : Type*} [Field K]

/-- What is known after `Energy.__init__`. -/
structure InitSpec [DecidableEq K] (order : List Atom → List Atom) (cell : M3 K) (g spin : Atom → K) (s : St K)
    (d : Bool) (e o : K) (E : EnergyObj K) (t : St K) (l1 l2 : List (Bond × ℕ)) (t1 : St K) : Prop where
  init : init order cell g s = (.ok E, t)
  factor : E.factor = e
  spins : E.spins = (s.magneticAtoms order).map spin
  gFactors : E.gFactors = (s.magneticAtoms order).map g
  field : E.field = none
  bonds : E.bonds = (l1 ++ l2).map (bondOf (s.magneticAtoms order) cell)
  atoms : ∀ p ∈ l1 ++ l2, p.1.1 ∈ s.magneticAtoms order ∧ p.1.2.1 ∈ s.magneticAtoms order
  sites : l1.map (fun p => (p.1, t.cell p.2)) = s.onSiteItems.map fun p => ((p.1, p.1, (0, 0, 0)), (e / o) • p.2)
  exch : l2.map (fun p => (p.1, t.cell p.2)) = t1.exchangeItems.map fun p => (p.1, (if d then (1 : K) else 2) • p.2)
  on : s.setDC true = .ok t1
  stored : l2 = t1.exch
  onWf : t1.WellFormed
  onVal : ∀ b, t1.valE b = St.dcMap s.dc true s.valE b
  wf : t.WellFormed
  ham : t.toHam = { s.toHam with exch := t.exch }
  turned : ∀ b, t.valE b = if d = true then s.valE b else if St.keeps b = true then s.oneE b else none
  exchangeItems : s.WellFormed → t.exchangeItems = s.exchangeItems
  magneticAtoms : t.magneticAtoms order = s.magneticAtoms order
  onSiteItems : t.onSiteItems = s.onSiteItems
  next : s.next ≤ t.next
  refs : d = true → ∀ p ∈ l1 ++ l2, s.next ≤ p.2 ∧ p.2 < t.next ∧ (∀ b, t.exch.get? b ≠ some p.2) ∧
    ∀ a, t.onSite.get? a ≠ some p.2

theorem siteItems_refs (l : List (Atom × ℕ)) (n : ℕ) : ∀ p ∈ LikeIter.siteItems l n, n ≤ p.2 ∧ p.2 < n + l.length := by
  induction l generalizing n with
  | nil => intro p hp; cases hp
  | cons q l ih =>
    intro p hp
    rcases List.mem_cons.1 hp with rfl | hp
    · simp
    · have := ih (n + 1) p hp
      simp only [List.length_cons]; omega

theorem siteItems_fst (l : List (Atom × ℕ)) (n : ℕ) :
    ∀ p ∈ LikeIter.siteItems l n, p.1.1 = p.1.2.1 ∧ ∃ q ∈ l, p.1.1 = q.1 := by
  induction l generalizing n with
  | nil => intro p hp; cases hp
  | cons q l ih =>
    intro p hp
    rcases List.mem_cons.1 hp with rfl | hp
    · exact ⟨rfl, q, List.mem_cons_self, rfl⟩
    · obtain ⟨h1, q', h2, h3⟩ := ih (n + 1) p hp
      exact ⟨h1, q', List.mem_cons_of_mem _ h2, h3⟩

theorem mem_magneticAtoms {s : St K} {order : List Atom → List Atom} (ho : ∀ l, (order l).Perm l) (a : Atom) :
    a ∈ s.magneticAtoms order ↔ (∃ b ∈ s.exch.keys, a = b.1 ∨ a = b.2.1) ∨ a ∈ s.onSite.keys := by
  unfold St.magneticAtoms
  dsimp only
  rw [(List.perm_insertionSort (fun a b : Atom => a.index ≤ b.index) _).mem_iff, (ho _).mem_iff, List.mem_dedup,
    List.mem_append, List.mem_flatMap]
  simp

/-- Magnetic atoms are sorted by index: they only depend on which atoms have parameters. -/
theorem magneticAtoms_congr {s t : St K} {order : List Atom → List Atom} (ho : ∀ l, (order l).Perm l)
    (hi : ∀ a ∈ s.magneticAtoms order, ∀ b ∈ s.magneticAtoms order, a.index = b.index → a = b)
    (h : ∀ a, a ∈ t.magneticAtoms order ↔ a ∈ s.magneticAtoms order) : t.magneticAtoms order = s.magneticAtoms order := by
  have nd : ∀ u : St K, (u.magneticAtoms order).Nodup := fun u => by
    unfold St.magneticAtoms
    dsimp only
    rw [(List.perm_insertionSort (fun a b : Atom => a.index ≤ b.index) _).nodup_iff, (ho _).nodup_iff]
    exact List.nodup_dedup _
  have pw : ∀ u : St K, (u.magneticAtoms order).Pairwise fun a b => a.index ≤ b.index := fun u =>
    List.pairwise_insertionSort (fun a b : Atom => a.index ≤ b.index) _
  refine List.Perm.eq_of_pairwise ?_ (pw t) (pw s) ((List.perm_ext_iff_of_nodup (nd t) (nd s)).2 h)
  intro a b ha hb h1 h2
  exact hi a ((h a).1 ha) b hb (le_antisymm h1 h2)

theorem init_spec [DecidableEq K] (h2 : (2 : K) ≠ 0) {order : List Atom → List Atom} (hord : ∀ l, (order l).Perm l)
    (cell : M3 K) (g spin : Atom → K) {s : St K} (hs : s.Paired) {d : Bool} {e o : K} (hd : s.dc = some d)
    (he : s.ef = some e) (ho : s.osf = some o) (h0 : o ≠ 0)
    (hsp : ∀ a ∈ s.magneticAtoms order, s.spin a = some (spin a)) :
    ∃ E t l1 l2 t1, InitSpec order cell g spin s d e o E t l1 l2 t1 := by
  obtain ⟨t1, hon, hham1, hwf1, hn1, hv1, hvo1⟩ := St.setDC_paired hs hd
  have he1 : t1.ef = some e := by rw [(congrArg Ham.ef hham1 :)]; exact he
  have ho1 : t1.osf = some o := by rw [(congrArg Ham.osf hham1 :)]; exact ho
  have hs1 : t1.onSite = s.onSite := (congrArg Ham.onSite hham1 :)
  have hd1 : t1.dc = some true := (congrArg Ham.dc hham1 :)
  have hinit : LikeIter.init t1 = .ok ⟨t1.onSite.length, t1.onSite, t1.onSite.keys, 0, t1.exch.length, t1.exch,
      t1.exch.keys, 0, e / o⟩ := by
    simp [LikeIter.init, he1, ho1, St.ratio, h0]
  obtain ⟨it', hv⟩ := LikeIter.visits_aux1 t1 (e / o) t1.onSite.length t1.onSite t1.exch t1.exch.length t1.onSite
    (fun p hp => get?_of_mem hwf1.keys.site (k := p.1) (v := p.2) hp) t1.exch
    (fun p hp => get?_of_mem hwf1.keys.exch (k := p.1) (v := p.2) hp) (fun h => List.length_pos_of_ne_nil h) 0 (by simp)
  set t2 := LikeIter.heap (e / o) t1.onSite t1 with ht2
  have hf2 := LikeIter.heap_frame (e / o) t1.onSite t1
  rw [← ht2] at hf2
  have hwf2 : t2.WellFormed := hwf1.grow hf2.1 (by rw [hf2.2.1]; omega) hf2.2.2
  have hd2 : t2.dc = some true := by rw [(congrArg Ham.dc hf2.1 :)]; exact hd1
  have hcol : collectIter LikeIter.next (likeFuel t1) ((⟨t1.onSite.length, t1.onSite, t1.onSite.keys, 0, t1.exch.length,
      t1.exch, t1.exch.keys, 0, e / o⟩ : LikeIter K), t1) = .ok (items t1, (it', t2)) :=
    collectIter_of_visits hv (n := likeFuel t1) (by
    rw [List.length_append, LikeIter.siteItems_length]; simp [likeFuel])
  have hat : ∀ p ∈ items t1, p.1.1 ∈ s.magneticAtoms order ∧ p.1.2.1 ∈ s.magneticAtoms order := by
    intro p hp
    rcases List.mem_append.1 hp with hp | hp
    · obtain ⟨h1, q, h3, h4⟩ := siteItems_fst _ _ p hp
      have : p.1.1 ∈ s.magneticAtoms order := by
        rw [mem_magneticAtoms hord]
        refine Or.inr ?_
        rw [h4, ← hs1]
        exact List.mem_map.2 ⟨q, h3, rfl⟩
      exact ⟨this, h1 ▸ this⟩
    · have hb : p.1 ∈ t1.exch.keys := List.mem_map.2 ⟨p, hp, rfl⟩
      have : p.1 ∈ s.exch.keys ∨ p.1.mirror ∈ s.exch.keys := by
        by_contra hc
        rw [not_or, ← St.valE_eq_none_iff, ← St.valE_eq_none_iff] at hc
        rw [← St.isSome_valE_iff, hv1] at hb
        simp [St.dcMap, hc.1, hc.2] at hb
      rw [mem_magneticAtoms hord, mem_magneticAtoms hord]
      rcases this with h | h
      · exact ⟨Or.inl ⟨_, h, Or.inl rfl⟩, Or.inl ⟨_, h, Or.inr rfl⟩⟩
      · exact ⟨Or.inl ⟨_, h, Or.inr rfl⟩, Or.inl ⟨_, h, Or.inl rfl⟩⟩
  have hbo := bondsOf_ok cell _ hat
  obtain ⟨t, hoff, hham, hwf, hn, hvt, hvot⟩ := St.setDC_wf hwf2 hd2 d
  have hn2 : t2.next = t1.next + t1.onSite.length := hf2.2.1
  -- the values of the objects of the items in the last state
  have hcellS : ∀ p ∈ LikeIter.siteItems t1.onSite t1.next, t.cell p.2 = t2.cell p.2 := by
    intro p hp
    have hr := siteItems_refs _ _ p hp
    refine (St.setDC_cell hwf2.keys hwf2.refer hwf2.noShare hoff (r := p.2) (by rw [hn2]; exact hr.2)).2 ?_
    intro b hb
    rw [(congrArg Ham.exch hf2.1 :)] at hb
    have := hwf1.alloc.exch b _ hb
    omega
  have hcellE : ∀ p ∈ t1.exch, t.cell p.2 = (if d then (1 : K) else 2) • t1.cell p.2 := by
    intro p hp
    have hg := get?_of_mem hwf1.keys.exch (k := p.1) (v := p.2) hp
    have hlt := hwf1.alloc.exch _ _ hg
    have := (St.setDC_cell hwf2.keys hwf2.refer hwf2.noShare hoff (r := p.2) (by omega)).1
      ⟨p.1, by rw [(congrArg Ham.exch hf2.1 :)]; exact hg⟩
    rw [this, hf2.2.2 _ hlt, hd2]
    cases d <;> simp [St.dcFactor]
  -- the values in the Hamiltonian
  have hturn : ∀ b, t.valE b = if d = true then s.valE b else if St.keeps b = true then s.oneE b else none := by
    intro b
    rw [hvt b, St.dcMap_wf hwf2 hd2]
    have e1 : ∀ b, t2.valE b = t1.valE b := St.valE_congr hf2.1 hwf1.alloc hf2.2.2
    cases d with
    | true => simp only [if_true]; rw [e1, hv1, St.dcMap_wf (hs.wf_of_true hd) hd]
    | false =>
      simp only [Bool.false_eq_true, if_false]
      rw [e1, hv1, St.dcMap_on hd]
      by_cases hk : St.keeps b = true
      · rw [if_pos hk, if_pos hk, St.oneE]
        by_cases hb : b ∈ s.exch.keys
        · rw [St.valE_eq_none_iff.2 (hs.single hd b hb)]
          cases s.valE b <;> simp [smul_smul, h2]
        · rw [St.valE_eq_none_iff.2 hb]
          cases s.valE b.mirror <;> simp [smul_smul, h2]
      · rw [if_neg hk, if_neg hk]
  have hval : s.WellFormed → ∀ b, t.valE b = s.valE b := by
    intro hw b
    rw [hturn]
    cases d with
    | true => rw [if_pos rfl]
    | false =>
      rw [if_neg Bool.false_ne_true]
      by_cases hk : St.keeps b = true
      · rw [if_pos hk, hw.oneE hd hk]
      · rw [if_neg hk]
        exact (St.valE_eq_none_iff.2 fun hb => hk ((keeps_iff b).2 (hw.once hd b hb))).symm
  have hvalO : ∀ a, t.valO a = s.valO a := fun a => by
    rw [hvot, St.valO_congr hf2.1 hwf1.alloc hf2.2.2, hvo1]
  have hkeys : s.WellFormed → t.exch.keys = s.exch.keys := by
    intro hw
    obtain ⟨M, hM⟩ := (St.setDC_keys hs.keys hs.refer hon).1 rfl
    have hex2 : t2.exch = t1.exch := (congrArg Ham.exch hf2.1 :)
    have hmem : ∀ b, b ∈ t.exch.keys ↔ b ∈ s.exch.keys := fun b => by
      rw [← St.isSome_valE_iff, hval hw, St.isSome_valE_iff]
    have hnd := hwf1.keys.exch
    rw [hM, List.nodup_append] at hnd
    cases d with
    | true =>
      obtain ⟨M', hM'⟩ := (St.setDC_keys hwf2.keys hwf2.refer hoff).1 rfl
      rw [hex2, hM] at hM'
      have hnd' := hwf.keys.exch
      rw [hM', List.append_assoc, List.nodup_append] at hnd'
      have : M ++ M' = [] := by
        rw [List.eq_nil_iff_forall_not_mem]
        intro b hb
        have h3 := (hmem b).1 (by rw [hM', List.append_assoc]; exact List.mem_append_right _ hb)
        exact hnd'.2.2 b h3 b hb rfl
      rw [hM', List.append_assoc, this, List.append_nil]
    | false =>
      have h3 := (St.setDC_keys hwf2.keys hwf2.refer hoff).2 rfl
      rw [h3, hex2, hM, List.filter_append]
      have e1 : (s.exch.keys.filter fun b => b ∈ t.exch.keys) = s.exch.keys := by
        rw [List.filter_eq_self]; intro b hb; simp [hmem, hb]
      have e2 : (M.filter fun b => b ∈ t.exch.keys) = [] := by
        rw [List.filter_eq_nil_iff]
        intro b hb h4
        rw [decide_eq_true_eq, hmem] at h4
        exact hnd.2.2 b h4 b hb rfl
      rw [e1, e2, List.append_nil]
  have hham' : t.toHam = { s.toHam with exch := t.exch } := by
    rw [hham, hf2.1, hham1]
    have : s.toHam.dc = some d := hd
    rw [← this]
  have hmag : t.magneticAtoms order = s.magneticAtoms order := by
    have hin : ∀ a ∈ s.magneticAtoms order, a ∈ s.atoms := by
      intro a ha
      rcases (mem_magneticAtoms hord a).1 ha with ⟨b, hb, rfl | rfl⟩ | ha
      · exact (hs.refer.exch b hb).1
      · exact (hs.refer.exch b hb).2
      · exact hs.refer.site a ha
    refine magneticAtoms_congr hord (fun a ha b hb => hs.index a (hin a ha) b (hin b hb)) fun a => ?_
    rw [mem_magneticAtoms hord, mem_magneticAtoms hord, (congrArg Ham.onSite hham' :)]
    refine or_congr ?_ Iff.rfl
    cases d with
    | true =>
      have : ∀ b, b ∈ t.exch.keys ↔ b ∈ s.exch.keys := fun b => by
        rw [← St.isSome_valE_iff, hturn, if_pos rfl, St.isSome_valE_iff]
      simp only [this]
    | false =>
      have hk : ∀ b, b ∈ t.exch.keys ↔ St.keeps b = true ∧ (b ∈ s.exch.keys ∨ b.mirror ∈ s.exch.keys) := fun b => by
        rw [← St.isSome_valE_iff, hturn, if_neg Bool.false_ne_true]
        by_cases hk : St.keeps b = true
        · rw [if_pos hk, St.isSome_oneE_iff]; simp [hk]
        · simp [hk]
      constructor
      · rintro ⟨b, hb, hab⟩
        rcases ((hk b).1 hb).2 with h | h
        · exact ⟨b, h, hab⟩
        · exact ⟨_, h, hab.symm⟩
      · rintro ⟨b, hb, hab⟩
        by_cases h : St.keeps b = true
        · exact ⟨b, (hk b).2 ⟨h, Or.inl hb⟩, hab⟩
        · refine ⟨b.mirror, (hk _).2 ⟨?_, Or.inr (by rw [Bond.mirror_mirror]; exact hb)⟩, hab.symm⟩
          rw [keeps_mirror (hs.noSelf b hb) (hs.index _ (hs.refer.exch b hb).1 _ (hs.refer.exch b hb).2)]
          simpa using h
  have hmap : mapAtoms s.spinOf (s.magneticAtoms order) = .ok ((s.magneticAtoms order).map spin) :=
    mapAtoms_ok _ hsp
  refine ⟨{ factor := e, gFactors := (s.magneticAtoms order).map g, spins := (s.magneticAtoms order).map spin,
            bonds := (items t1).map (bondOf (s.magneticAtoms order) cell), field := none, m := 10,
            wolfeIterMax := 10000, wolfeC1 := 1 / 10000, wolfeC2 := 9 / 10 }, t, LikeIter.siteItems t1.onSite t1.next, t1.exch, t1,
    { init := ?_, factor := rfl, spins := rfl, gFactors := rfl, field := rfl, bonds := rfl, atoms := hat,
      sites := ?_, exch := ?_, on := hon, stored := rfl, onWf := hwf1, onVal := hv1, wf := hwf, ham := hham',
      turned := hturn,
      exchangeItems := fun hw => St.exchangeItems_ext hs.keys hwf.keys (hkeys hw) (hval hw), magneticAtoms := hmag,
      onSiteItems := St.onSiteItems_ext hs.keys hwf.keys (congrArg Ham.onSite hham' :) hvalO,
      next := by omega, refs := ?_ }⟩
  · unfold EnergyObj.init
    simp only [he, hd, hmap, hon, Res.st_ok, Res.err_ok, hinit, hcol]
    simp only [hbo, hoff, Res.st_ok, Res.err_ok]
  · have := LikeIter.siteItems_cells (e / o) t1.onSite t1
      (fun p hp => hwf1.alloc.site p.1 p.2 (get?_of_mem hwf1.keys.site hp))
    rw [← ht2] at this
    have h3 : (LikeIter.siteItems t1.onSite t1.next).map (fun p => (p.1, t.cell p.2)) =
        (LikeIter.siteItems t1.onSite t1.next).map (fun p => (p.1, t2.cell p.2)) :=
      List.map_congr_left fun p hp => by rw [hcellS p hp]
    rw [h3, this, ← St.onSiteItems_ext hs.keys hwf1.keys hs1 hvo1]
    unfold St.onSiteItems
    rw [List.map_map]
    apply List.map_congr_left
    intro p _
    simp only [Function.comp, Prod.mk.injEq, true_and]
    ext i j
    simp [Param.mulNum, mul_comm]
  · unfold St.exchangeItems
    rw [List.map_map]
    exact List.map_congr_left fun p hp => by simp only [Function.comp]; rw [hcellE p hp]
  · rintro rfl p hp
    have hlo : s.next ≤ p.2 ∧ p.2 < t2.next := by
      rcases List.mem_append.1 hp with hp | hp
      · have := siteItems_refs _ _ p hp; omega
      · have hg := get?_of_mem hwf1.keys.exch (k := p.1) (v := p.2) hp
        have := hwf1.alloc.exch _ _ hg
        exact ⟨St.setDC_refs_fresh (hs.wf_of_true hd) hd hon _ _ hg, by omega⟩
    refine ⟨hlo.1, by omega, fun b hb => ?_, fun a ha => ?_⟩
    · have := St.setDC_refs_fresh hwf2 hd2 hoff _ _ hb; omega
    · rw [(congrArg Ham.onSite hham' :)] at ha
      have := hs.alloc.site a _ ha; omega

end EnergyObj

theorem PyDict.nodup_refs {α : Type*} [DecidableEq α] {d : PyDict α ℕ} (h : (d.map Prod.snd).Nodup) (b b' : α) (r : ℕ)
    (h1 : d.get? b = some r) (h2 : d.get? b' = some r) : b = b' := by
  have m1 := mem_of_get? h1
  have m2 := mem_of_get? h2
  have := List.inj_on_of_nodup_map h m1 m2 rfl
  exact congrArg Prod.fst this

/-- A check of `Sound` on the lists of a concrete state. -/
theorem St.sound_of_lists {K : Type*} [Field K] {s : St K} (h1 : s.exch.keys.Nodup) (h2 : s.onSite.keys.Nodup)
    (h3 : (s.exch.map Prod.snd ++ s.onSite.map Prod.snd).Nodup)
    (h4 : ∀ r ∈ s.exch.map Prod.snd ++ s.onSite.map Prod.snd, r < s.next)
    (h5 : ∀ b ∈ s.exch.keys, b.1 ∈ s.atoms ∧ b.2.1 ∈ s.atoms) (h6 : ∀ a ∈ s.onSite.keys, a ∈ s.atoms)
    (h7 : ∀ a ∈ s.atoms, ∀ b ∈ s.atoms, a.index = b.index → a = b) (h8 : ∀ b ∈ s.exch.keys, b.mirror ≠ b) : s.Sound where
  keys := ⟨h1, h2⟩
  refer := ⟨h5, h6⟩
  alloc := ⟨fun b r h => h4 r (List.mem_append_left _ (List.mem_map.2 ⟨_, mem_of_get? h, rfl⟩)),
    fun b r h => h4 r (List.mem_append_right _ (List.mem_map.2 ⟨_, mem_of_get? h, rfl⟩))⟩
  noShare := by
    rw [List.nodup_append] at h3
    exact ⟨nodup_refs h3.1, nodup_refs h3.2.1, fun b a r hb ha =>
      h3.2.2 r (List.mem_map.2 ⟨_, mem_of_get? hb, rfl⟩) r (List.mem_map.2 ⟨_, mem_of_get? ha, rfl⟩) rfl⟩
  index := h7
  noSelf := h8

end Magnopy
