import Verif.Lemmas.HamCopy
import Verif.Props.HamHistory
import Mathlib.Data.List.Sort
import Mathlib.Tactic.NormNum

/-!
# Properties C14-C18 and C20: the Hamiltonian as a container

States are arbitrary; where a hypothesis is needed it is one of the invariants that hold in every
reachable state (`St.Inv`, `Verif/Lemmas/HamInv.lean`, `runOps_inv`) or says that objects passed by
the caller exist (`St.Alloc`: addresses of stored objects were allocated).
-/

set_option autoImplicit false

set_option linter.unusedSectionVars false

namespace Magnopy

open PyDict

variable {K : Type*} [Field K]

/-- The objects a caller can pass exist. -/
def ParamArg.Exists (s : St K) : ParamArg K → Prop
  | .obj r => r < s.next
  | .fresh _ => True

/-! ### The state used in the examples -/

theorem St.alloc_of_all {s : St K} (h1 : s.exch.all (fun p => decide (p.2 < s.next)) = true)
    (h2 : s.onSite.all (fun p => decide (p.2 < s.next)) = true) : s.Alloc :=
  ⟨fun b r h => by simpa using List.all_eq_true.1 h1 (b, r) (mem_of_get? h),
   fun b r h => by simpa using List.all_eq_true.1 h2 (b, r) (mem_of_get? h)⟩

namespace DictExample

open HistoryExample

/-- Double counting on; bonds Fe1-Fe2 and Fe2-Fe2 with their mirrors, on-site term at Fe1. -/
def s1 : St ℚ := runOps ops s0

/-- The same without double counting: two bonds. -/
def s2 : St ℚ := runOps (ops ++ [.setDC false]) s0

theorem s1_inv : s1.Inv := runOps_inv ops s0 (St.inv_empty _ _ _ _)
theorem s2_inv : s2.Inv := runOps_inv _ s0 (St.inv_empty _ _ _ _)
theorem s1_alloc : s1.Alloc := St.alloc_of_all (by decide +kernel) (by decide +kernel)

end DictExample

/-! ### C14 -/

namespace St

/-- Crystal atoms after `ham[a, b, R] = p` or `ham[a] = p`. -/
def withAtom (l : List Atom) (a : Atom) : List Atom := if a ∈ l then l else l ++ [a]

theorem findOrAdd_atom (s : St K) (a : Atom) :
    s.findOrAdd (.atom a) = .ok ({ s with atoms := withAtom s.atoms a }, a) := by
  unfold findOrAdd withAtom
  by_cases h : a ∈ s.atoms <;> simp [h]

theorem resolve_next (s : St K) (p : ParamArg K) (hp : p.Exists s) :
    (s.resolve p).2 < (s.resolve p).1.next ∧ s.next ≤ (s.resolve p).1.next ∧
      (s.resolve p).1.cell (s.resolve p).2 = p.value s ∧
      (∀ q < s.next, (s.resolve p).1.cell q = s.cell q) := by
  cases p with
  | obj r => exact ⟨hp, le_refl _, rfl, fun _ _ => rfl⟩
  | fresh m =>
    refine ⟨by simp [resolve, St.alloc], by simp [resolve, St.alloc],
      by simp [resolve, St.alloc, ParamArg.value], fun q hq => ?_⟩
    have : q ≠ s.next := by omega
    simp [resolve, St.alloc, this]

end St

/-- **C14 (bonds).** After `ham[a, b, R] = p` (never raises for `Atom`s):
`ham[a, b, R]` is `p` (the very object, if an object was passed); the mirror is created exactly when
double counting is on and it was missing, as a new object with the transposed matrix; every other bond
and every on-site term is the same object as before with the same value; the notation is unchanged;
`a` and `b` are atoms of the crystal and no atom was lost or reordered. -/
theorem C14_set_bond (s : St K) (ha : s.Alloc) (a b : Atom) (R : Cell) (p : ParamArg K) (hp : p.Exists s) :
    ∃ t, s.setItem (.bond (.atom a) (.atom b) R) p = .ok t ∧
      (∃ r, t.getItem (.bond (.atom a) (.atom b) R) = .ok r ∧ (∀ q, p = .obj q → r = q) ∧
        t.cell r = p.value s) ∧
      (∀ c, c ≠ (a, b, R) →
        t.valE c = if s.dc = some true ∧ c = (b, a, -R) ∧ s.valE c = none then some (p.value s).transpose
          else s.valE c) ∧
      (∀ c, c ≠ (a, b, R) → (c ≠ (b, a, -R) ∨ s.exch.get? c ≠ none ∨ s.dc ≠ some true) →
        t.exch.get? c = s.exch.get? c) ∧
      t.onSite = s.onSite ∧ (∀ c, t.valO c = s.valO c) ∧ (∀ q < s.next, t.cell q = s.cell q) ∧
      (t.dc, t.sn, t.ef, t.osf) = (s.dc, s.sn, s.ef, s.osf) ∧
      (∃ new, t.atoms = s.atoms ++ new ∧ ∀ c ∈ new, c = a ∨ c = b) ∧ a ∈ t.atoms ∧ b ∈ t.atoms := by
  set s1 : St K := { s with atoms := St.withAtom s.atoms a }
  set s2 : St K := { s1 with atoms := St.withAtom s1.atoms b }
  have hp2 : p.Exists s2 := by cases p <;> exact hp
  obtain ⟨h1, h2, h3, h4⟩ := St.resolve_next s2 p hp2
  have ht := St.resolve_toHam s2 p
  set s3 := (s2.resolve p).1
  set r := (s2.resolve p).2
  have hval : p.value s2 = p.value s := by cases p <;> rfl
  have hexch : s3.exch = s.exch := (congrArg Ham.exch ht :)
  have hsite : s3.onSite = s.onSite := (congrArg Ham.onSite ht :)
  have hdc : s3.dc = s.dc := (congrArg Ham.dc ht :)
  have ha3 : s3.Alloc := ⟨fun b r h => lt_of_lt_of_le (ha.exch b r (by rwa [hexch] at h)) h2,
    fun a r h => lt_of_lt_of_le (ha.site a r (by rwa [hsite] at h)) h2⟩
  have hvE : ∀ c, s3.valE c = s.valE c := by
    intro c
    unfold St.valE
    rw [hexch]
    cases hg : s.exch.get? c with
    | none => rfl
    | some q => simp [h4 q (ha.exch c q hg)]; rfl
  have hvO : ∀ c, s3.valO c = s.valO c := by
    intro c
    unfold St.valO
    rw [hsite]
    cases hg : s.onSite.get? c with
    | none => rfl
    | some q => simp [h4 q (ha.site c q hg)]; rfl
  have hf := St.putBond_frame s3 (a, b, R) r
  have hnone : ∀ c, s.valE c = none ↔ c ∉ s.exch.keys := by
    intro c
    unfold St.valE
    rw [Option.map_eq_none_iff, get?_eq_none_iff]
  refine ⟨s3.putBond (a, b, R) r, ?_, ⟨r, ?_, ?_, ?_⟩, ?_, ?_, ?_, ?_, ?_, ?_, ?_, ?_, ?_⟩
  · simp only [St.setItem, St.addExchange, St.findOrAdd_atom]
    rfl
  · have : (s3.putBond (a, b, R) r).valE (a, b, R) = some (s3.cell r) := by
      rw [St.putBond_valE ha3 h1]; simp
    have hk : (s3.putBond (a, b, R) r).exch.get? (a, b, R) = some r := by
      cases hg : (s3.putBond (a, b, R) r).exch.get? (a, b, R) with
      | none => unfold St.valE at this; rw [hg] at this; cases this
      | some q =>
        rcases St.putBond_ref _ _ hg with ⟨_, h⟩ | ⟨h, _⟩ | ⟨h, _⟩
        · rw [h]
        · exact absurd rfl h
        · exact absurd rfl h
    simp only [St.getItem, St.find, hk]
  · rintro q rfl; rfl
  · rw [← hval, ← h3]
    unfold St.putBond
    dsimp only
    split
    · have : r ≠ s3.next := by omega
      simp [St.alloc, this]
    · rfl
  · intro c hc
    rw [St.putBond_valE ha3 h1, if_neg hc, hdc, hvE, h3, hval, hexch]
    have : Bond.mirror (a, b, R) = (b, a, -R) := rfl
    rw [this]
    refine if_congr ?_ rfl rfl
    rw [hnone]
    constructor
    · rintro ⟨h1, rfl, h2⟩; exact ⟨h1, rfl, h2⟩
    · rintro ⟨h1, rfl, h2⟩; exact ⟨h1, rfl, h2⟩
  · intro c hc hor
    unfold St.putBond
    dsimp only
    rw [hdc]
    split
    · next h =>
      have hm : Bond.mirror (a, b, R) = (b, a, -R) := rfl
      rw [hm] at h
      have hcm : ¬ (b, a, -R) = c := by
        rintro rfl
        rcases hor with h' | h' | h'
        · exact h' rfl
        · have := h.2
          rw [get?_set, if_neg (fun e => hc e.symm), hexch] at this
          exact h' this
        · exact h' h.1
      simp only [St.alloc, hm]
      rw [get?_set, if_neg hcm, get?_set, if_neg (fun e => hc e.symm), hexch]
    · show (s3.exch.set (a, b, R) r).get? c = _
      rw [get?_set, if_neg (fun e => hc e.symm), hexch]
  · rw [hf.2.1, hsite]
  · intro c; rw [St.putBond_valO ha3, hvO]
  · intro q hq
    rw [show s.cell q = s3.cell q from (h4 q hq).symm]
    unfold St.putBond
    dsimp only
    split
    · have : q ≠ s3.next := by
        have : s2.next = s.next := rfl
        omega
      simp [St.alloc, this]
    · rfl
  · rw [hf.2.2.1, hf.2.2.2.1, hf.2.2.2.2.1, hf.2.2.2.2.2.1, hdc,
      show s3.sn = s.sn from (congrArg Ham.sn ht :), show s3.ef = s.ef from (congrArg Ham.ef ht :),
      show s3.osf = s.osf from (congrArg Ham.osf ht :)]
  · rw [hf.1, show s3.atoms = St.withAtom (St.withAtom s.atoms a) b from (congrArg Ham.atoms ht :)]
    unfold St.withAtom
    split_ifs
    · exact ⟨[], by simp, by simp⟩
    · exact ⟨[b], by simp, by simp⟩
    · exact ⟨[a], by simp, by simp⟩
    · exact ⟨[a, b], by simp, by simp⟩
  · rw [hf.1, show s3.atoms = St.withAtom (St.withAtom s.atoms a) b from (congrArg Ham.atoms ht :)]
    unfold St.withAtom
    split_ifs <;> simp_all
  · rw [hf.1, show s3.atoms = St.withAtom (St.withAtom s.atoms a) b from (congrArg Ham.atoms ht :)]
    unfold St.withAtom
    split_ifs <;> simp_all

open HistoryExample DictExample in
/-- C14: a new bond with a new parameter in a state with double counting, its mirror is created. -/
example : s1.Alloc ∧ ParamArg.Exists s1 (.fresh mA) ∧
    s1.dc = some true ∧ s1.valE (fe1, fe1, (0, 0, 1)) = none ∧ s1.valE (fe1, fe1, (0, 0, -1)) = none ∧
    ((s1.setItem (.bond (.atom fe1) (.atom fe1) (0, 0, 1)) (.fresh mA)).st.valE (fe1, fe1, (0, 0, -1))).map
      (fun M => M 0 2) = some 7 :=
  ⟨s1_alloc, trivial, by decide +kernel, by decide +kernel, by decide +kernel, by decide +kernel⟩

/-- **C14 (on-site).** After `ham[a] = p`, `ham[a]` is `p`, other on-site terms, all bonds, the
notation and the other atoms are as before. -/
theorem C14_set_on_site (s : St K) (ha : s.Alloc) (a : Atom) (p : ParamArg K) (hp : p.Exists s) :
    ∃ t, s.setItem (.site (.atom a)) p = .ok t ∧
      (∃ r, t.getItem (.site (.atom a)) = .ok r ∧ (∀ q, p = .obj q → r = q) ∧ t.cell r = p.value s) ∧
      (∀ c, c ≠ a → t.onSite.get? c = s.onSite.get? c ∧ t.valO c = s.valO c) ∧
      t.exch = s.exch ∧ (∀ c, t.valE c = s.valE c) ∧ (∀ q < s.next, t.cell q = s.cell q) ∧
      (t.dc, t.sn, t.ef, t.osf) = (s.dc, s.sn, s.ef, s.osf) ∧ t.atoms = St.withAtom s.atoms a ∧ a ∈ t.atoms := by
  set s2 : St K := { s with atoms := St.withAtom s.atoms a }
  have hp2 : p.Exists s2 := by cases p <;> exact hp
  obtain ⟨h1, h2, h3, h4⟩ := St.resolve_next s2 p hp2
  have ht := St.resolve_toHam s2 p
  set s3 := (s2.resolve p).1
  set r := (s2.resolve p).2
  have hval : p.value s2 = p.value s := by cases p <;> rfl
  have hexch : s3.exch = s.exch := (congrArg Ham.exch ht :)
  have hsite : s3.onSite = s.onSite := (congrArg Ham.onSite ht :)
  refine ⟨{ s3 with onSite := s3.onSite.set a r }, ?_, ⟨r, ?_, ?_, ?_⟩, ?_, hexch, ?_, h4, ?_, ?_, ?_⟩
  · simp only [St.setItem, St.addOnSite, St.findOrAdd_atom]
    rfl
  · simp [St.getItem, St.find]
  · rintro q rfl; rfl
  · rw [← hval, ← h3]
  · intro c hc
    have hg : (s3.onSite.set a r).get? c = s.onSite.get? c := by
      rw [get?_set, if_neg (fun e => hc e.symm), hsite]
    refine ⟨hg, ?_⟩
    unfold St.valO
    simp only [hg]
    cases hq : s.onSite.get? c with
    | none => rfl
    | some q => simp [h4 q (ha.site c q hq)]; rfl
  · intro c
    unfold St.valE
    simp only [hexch]
    cases hq : s.exch.get? c with
    | none => rfl
    | some q => simp [h4 q (ha.exch c q hq)]; rfl
  · have := congrArg (fun h : Ham K => (h.dc, h.sn, h.ef, h.osf)) ht
    exact this
  · exact (congrArg Ham.atoms ht :)
  · rw [show s3.atoms = St.withAtom s.atoms a from (congrArg Ham.atoms ht :)]
    unfold St.withAtom
    split_ifs <;> simp_all

open HistoryExample DictExample in
/-- C14 (on-site): replacing the on-site term of Fe1 by an existing object. -/
example : s1.Alloc ∧ ParamArg.Exists s1 (.obj 0) ∧ (s1.valO fe1).map (fun M => M 1 1) = some (-25 / 2) :=
  ⟨s1_alloc, (by decide +kernel : 0 < s1.next), by decide +kernel⟩

/-- **C14 (membership).** For every key, `key in ham` is true exactly if `ham[key]` is a parameter, false exactly
if the atoms of the key are found but `ham[key]` raises `KeyError`, and it raises what the search for the
atoms raises otherwise. -/
theorem C14_contains (s : St K) (k : St.Key) :
    (s.contains k = .ok true ↔ ∃ r, s.getItem k = .ok r) ∧
    (s.contains k = .ok false → s.getItem k = .error .keyError) ∧
    (∀ e, s.contains k = .error e → s.getItem k = .error e) := by
  cases k with
  | site x =>
    cases h : s.find x with
    | error e => simp [St.contains, St.getItem, h, Except.map]
    | ok a => cases h' : s.onSite.get? a <;> simp [St.contains, St.getItem, h, h', Except.map]
  | bond x y R =>
    cases h : s.find x with
    | error e => simp [St.contains, St.getItem, h]
    | ok a =>
      cases h1 : s.find y with
      | error e => simp [St.contains, St.getItem, h, h1]
      | ok b => cases h' : s.exch.get? (a, b, R) <;> simp [St.contains, St.getItem, h, h1, h']
  | bad => simp [St.contains, St.getItem]

open HistoryExample DictExample in
example : (s1.contains (.bond (.name "Fe1") (.atom fe2) (1, 0, 0)) matches .ok true) = true ∧
    (s1.contains (.bond (.name "Fe1") (.atom fe2) (2, 0, 0)) matches .ok false) = true ∧
    (s1.contains (.bond (.name "Fe7") (.atom fe2) (1, 0, 0)) matches .error .valueError) = true := by
  decide +kernel

/-- **C14 (names).** A unique name of an atom of the crystal can be used instead of the atom. -/
theorem C14_by_name (s : St K) (n k : String) (a b : Atom) (R : Cell) (p : ParamArg K)
    (ha : s.getAtom n = .ok a) (hb : s.getAtom k = .ok b) :
    s.setItem (.bond (.name n) (.name k) R) p = s.setItem (.bond (.atom a) (.atom b) R) p ∧
    s.setItem (.bond (.atom a) (.name k) R) p = s.setItem (.bond (.atom a) (.atom b) R) p ∧
    s.setItem (.bond (.name n) (.atom b) R) p = s.setItem (.bond (.atom a) (.atom b) R) p ∧
    s.setItem (.site (.name n)) p = s.setItem (.site (.atom a)) p ∧
    s.getItem (.bond (.name n) (.name k) R) = s.getItem (.bond (.atom a) (.atom b) R) ∧
    s.getItem (.site (.name n)) = s.getItem (.site (.atom a)) ∧
    s.contains (.bond (.name n) (.name k) R) = s.contains (.bond (.atom a) (.atom b) R) ∧
    s.contains (.site (.name n)) = s.contains (.site (.atom a)) := by
  have h1 := St.getAtom_mem ha
  have h2 := St.getAtom_mem hb
  have e1 : s.findOrAdd (.name n) = .ok (s, a) := by simp [St.findOrAdd, ha, Except.map]
  have e2 : s.findOrAdd (.name k) = .ok (s, b) := by simp [St.findOrAdd, hb, Except.map]
  have e3 : s.findOrAdd (.atom a) = .ok (s, a) := by simp [St.findOrAdd, h1]
  have e4 : s.findOrAdd (.atom b) = .ok (s, b) := by simp [St.findOrAdd, h2]
  refine ⟨?_, ?_, ?_, ?_, ?_, ?_, ?_, ?_⟩
  · simp only [St.setItem, St.addExchange, e1, e2, e3, e4]
  · simp only [St.setItem, St.addExchange, e2, e3, e4]
  · simp only [St.setItem, St.addExchange, e1, e3, e4]
  · simp only [St.setItem, St.addOnSite, e1, e3]
  · simp only [St.getItem, St.find, ha, hb]
  · simp only [St.getItem, St.find, ha]
  · simp only [St.contains, St.find, ha, hb]
  · simp only [St.contains, St.find, ha]

open HistoryExample DictExample in
example : s1.getAtom "Fe1" = .ok fe1 ∧ s1.getAtom "Fe2__2" = .ok fe2 := by decide +kernel

/-! ### C15 -/

/-- **C15.** `remove_exchange` of a stored bond: succeeds, deletes that bond and, with double counting,
its mirror; every other bond is the same object with the same value; nothing else changes. -/
theorem C15_remove_present (s : St K) (hs : s.KeysNodup) (x y : AtomArg) (a b : Atom) (R : Cell) (f : Bool)
    (hx : s.find x = .ok a) (hy : s.find y = .ok b) (h : s.valE (a, b, R) ≠ none) :
    ∃ d, s.removeExchange x y R f = .ok { s with exch := d } ∧
      s.delItem (.bond x y R) = .ok { s with exch := d } ∧
      ∀ c, d.get? c = if c = (a, b, R) ∨ (s.dc = some true ∧ c = (b, a, -R)) then none else s.exch.get? c := by
  have hm : (a, b, R) ∈ s.exch.keys := by
    by_contra hn
    apply h
    unfold St.valE
    rw [get?_eq_none_iff.2 hn]; rfl
  refine ⟨s.exch.filter (fun p => decide (p.1 ≠ (a, b, R) ∧
    ¬ (s.dc = some true ∧ p.1 = Bond.mirror (a, b, R)))), ?_, ?_, ?_⟩
  · unfold St.removeExchange
    simp only [hx, hy]
    exact St.dropBond_eq hs (Or.inl hm)
  · unfold St.delItem St.removeExchange
    simp only [hx, hy]
    exact St.dropBond_eq hs (Or.inl hm)
  · intro c
    rw [St.get?_filter s.exch (fun c => decide (c ≠ (a, b, R) ∧ ¬ (s.dc = some true ∧ c = Bond.mirror (a, b, R))))]
    have hm' : Bond.mirror (a, b, R) = (b, a, -R) := rfl
    rw [hm']
    by_cases h1 : c = (a, b, R)
    · rw [if_neg (by simp [h1]), if_pos (Or.inl h1)]
    · by_cases h2 : s.dc = some true ∧ c = (b, a, -R)
      · rw [if_neg (by rw [decide_eq_true_iff]; exact fun h => h.2 h2), if_pos (Or.inr h2)]
      · rw [if_pos (by rw [decide_eq_true_iff]; exact ⟨h1, h2⟩), if_neg (by rintro (h | h); exacts [h1 h, h2 h])]

/-- **C15.** `remove_exchange` of a bond that is not stored raises `KeyError` and changes nothing;
with `raise_if_no_bond=False`, in a state where mirrors are stored in pairs (C09), it does nothing. -/
theorem C15_remove_absent (s : St K) (hs : s.Inv) (x y : AtomArg) (a b : Atom) (R : Cell)
    (hx : s.find x = .ok a) (hy : s.find y = .ok b) (h : s.valE (a, b, R) = none) :
    s.removeExchange x y R true = .raise s .keyError ∧ s.delItem (.bond x y R) = .raise s .keyError ∧
      s.removeExchange x y R false = .ok s := by
  have hm : (a, b, R) ∉ s.exch.keys := by
    rw [← get?_eq_none_iff]
    unfold St.valE at h
    simpa using h
  have hm' : s.dc = some true → Bond.mirror (a, b, R) ∉ s.exch.keys := by
    intro hd hc
    have := hs.closed hd _ hc
    rw [Bond.mirror_mirror] at this
    exact hm this
  unfold St.delItem St.removeExchange
  simp only [hx, hy]
  refine ⟨?_, ?_, ?_⟩
  · rw [St.dropBond, if_pos ⟨get?_eq_none_iff.2 hm, rfl⟩]
  · rw [St.dropBond, if_pos ⟨get?_eq_none_iff.2 hm, rfl⟩]
  · rw [St.dropBond_eq hs.nodup (Or.inr rfl)]
    congr 1
    have : s.exch.filter (fun p => decide (p.1 ≠ (a, b, R) ∧ ¬ (s.dc = some true ∧ p.1 = Bond.mirror (a, b, R)))) =
        s.exch := by
      rw [List.filter_eq_self]
      intro p hp
      have hpk : p.1 ∈ s.exch.keys := List.mem_map_of_mem hp
      simp only [decide_eq_true_eq]
      refine ⟨fun e => hm (e ▸ hpk), fun ⟨hd, e⟩ => hm' hd (e ▸ hpk)⟩
    rw [this]

open HistoryExample DictExample in
example : s1.Inv ∧ s1.find (.name "Fe1") = .ok fe1 ∧ s1.valE (fe1, fe2, (1, 0, 0)) ≠ none ∧
    s1.valE (fe1, fe2, (2, 0, 0)) = none ∧
    (s1.removeExchange (.name "Fe1") (.atom fe2) (1, 0, 0) true).st.exch.length = 2 :=
  ⟨s1_inv, by decide +kernel, by decide +kernel, by decide +kernel, by decide +kernel⟩

/-! ### C16 -/

/-- **C16, what is provable: removal by `Atom`.** `remove_on_site(atom)` and `del ham[atom]` delete
exactly the on-site term of the atom; a missing term raises `KeyError` (or nothing) and changes
nothing.

Missing for the full property: removal by name, see `C16_remove_by_name_false`. -/
theorem C16_remove_on_site_partial (s : St K) (hs : s.KeysNodup) (a : Atom) (f : Bool) :
    (s.valO a ≠ none → ∃ d, s.removeOnSite (.atom a) f = .ok { s with onSite := d } ∧
        s.delItem (.site (.atom a)) = .ok { s with onSite := d } ∧
        ∀ c, d.get? c = if c = a then none else s.onSite.get? c) ∧
    (s.valO a = none → s.removeOnSite (.atom a) true = .raise s .keyError ∧
      s.removeOnSite (.atom a) false = .ok s) := by
  constructor
  · intro h
    have hm : a ∈ s.onSite.keys := by
      by_contra hn
      apply h
      unfold St.valO
      rw [get?_eq_none_iff.2 hn]; rfl
    refine ⟨_, St.removeOnSite_eq hs hm, St.removeOnSite_eq hs hm, fun c => ?_⟩
    rw [St.get?_filter s.onSite (fun c => decide (c ≠ a))]
    by_cases hc : c = a <;> simp [hc]
  · intro h
    have hm : s.onSite.get? a = none := by
      unfold St.valO at h
      simpa using h
    simp [St.removeOnSite, hm]

/-- **C16 is false of the code for every name**: the removal never happens, and `remove_on_site(name)`
and `del ham[name]` raise whenever the name is that of an atom, whether or not it has an on-site
term (hamiltonian.py 817-827). -/
theorem C16_remove_by_name_false (s : St K) (n : String) (a : Atom) (h : s.getAtom n = .ok a) :
    s.removeOnSite (.name n) true = .raise s .attributeError ∧ s.removeOnSite (.name n) false = .ok s ∧
      s.delItem (.site (.name n)) = .raise s .attributeError := by
  simp [St.removeOnSite, St.delItem, h]

open HistoryExample DictExample in
example : s1.KeysNodup ∧ s1.valO fe1 ≠ none ∧ s1.valO fe2 = none ∧ s1.getAtom "Fe1" = .ok fe1 :=
  ⟨s1_inv.nodup, by decide +kernel, by decide +kernel, by decide +kernel⟩

/-! ### C17 -/

/-- The bond is attached to the atom. -/
def Involves (b : Bond) (a : Atom) : Prop := b.1 = a ∨ b.2.1 = a

instance (b : Bond) (a : Atom) : Decidable (Involves b a) := by unfold Involves; infer_instance

/-- **C17, exact domain.** In every reachable state (`St.Inv`), for an atom of the crystal,
`remove_atom` succeeds iff double counting is not on or the atom has no bond except with itself in the
same cell.

Missing for the full property: success in the other cases, see `C17_double_counting_false`. -/
theorem C17_remove_atom_partial (s : St K) (hs : s.Inv) (x : AtomArg) (a : Atom) (hx : s.find x = .ok a)
    (ha : a ∈ s.atoms) :
    ((s.removeAtom x).err = none ↔
      (s.dc ≠ some true ∨ ∀ b, s.valE b ≠ none → Involves b a → b = (a, a, (0, 0, 0)))) ∧
    ((s.removeAtom x).err = none → ∃ d o, (s.removeAtom x).st = { s with exch := d, onSite := o, atoms := s.atoms.erase a } ∧
        (∀ c, d.get? c = if Involves c a then none else s.exch.get? c) ∧
        (∀ c, o.get? c = if c = a then none else s.onSite.get? c)) := by
  classical
  set ks : List (Bond ⊕ Atom) := ((s.exch.keys.filter fun b => b.1 = a ∨ b.2.1 = a).map Sum.inl) ++
      (if s.onSite.get? a ≠ none then [Sum.inr a] else []) with hks
  have hdef : s.removeAtom x = (forEach ks St.delEntry s).andThen fun t =>
      if a ∈ t.atoms then .ok { t with atoms := t.atoms.erase a } else .raise t .valueError := by
    unfold St.removeAtom
    simp only [hx]
    rfl
  have hmemE : ∀ b, Sum.inl b ∈ ks ↔ b ∈ s.exch.keys ∧ Involves b a := by
    intro b
    rw [hks, List.mem_append]
    constructor
    · rintro (h | h)
      · obtain ⟨c, hc, e⟩ := List.mem_map.1 h
        cases e
        have := List.mem_filter.1 hc
        exact ⟨this.1, by simpa [Involves] using this.2⟩
      · split_ifs at h <;> simp at h
    · rintro ⟨h1, h2⟩
      exact Or.inl (List.mem_map.2 ⟨b, List.mem_filter.2 ⟨h1, by simpa [Involves] using h2⟩, rfl⟩)
  have hmemS : ∀ c, Sum.inr c ∈ ks ↔ c = a ∧ a ∈ s.onSite.keys := by
    intro c
    rw [hks, List.mem_append]
    constructor
    · rintro (h | h)
      · obtain ⟨c, hc, e⟩ := List.mem_map.1 h
        cases e
      · split_ifs at h with h1
        · simp at h
          refine ⟨h, ?_⟩
          rw [Ne, get?_eq_none_iff, not_not] at h1
          exact h1
        · simp at h
    · rintro ⟨rfl, h⟩
      right
      rw [if_pos (by rw [Ne, get?_eq_none_iff, not_not]; exact h)]
      simp
  have hnd : ks.Nodup := by
    rw [hks, List.nodup_append]
    refine ⟨(hs.nodup.exch.filter _).map Sum.inl_injective, by split_ifs <;> simp, ?_⟩
    rintro k hk j hj rfl
    obtain ⟨c, hc, rfl⟩ := List.mem_map.1 hk
    split_ifs at hj <;> simp at hj
  have hHas : ∀ k ∈ ks, s.Has k := by
    rintro (b | c) hk
    · exact ((hmemE b).1 hk).1
    · have := (hmemS c).1 hk
      rw [this.1]; exact this.2
  have hself : ∀ b : Bond, Involves b a → (b.mirror = b ↔ b = (a, a, (0, 0, 0))) := by
    rintro ⟨c, d, i, j, k⟩ hb
    simp only [Involves, Bond.mirror, Prod.mk.injEq] at hb ⊢
    constructor
    · rintro ⟨rfl, _, h1, h2, h3⟩
      refine ⟨by tauto, by tauto, by omega, by omega, by omega⟩
    · rintro ⟨rfl, rfl, rfl, rfl, rfl⟩; simp
  have hval : ∀ b, s.valE b ≠ none ↔ b ∈ s.exch.keys := by
    intro b
    unfold St.valE
    rw [Ne, Option.map_eq_none_iff, get?_eq_none_iff, not_not]
  have hgood : (s.dc ≠ some true ∨ ∀ b, s.valE b ≠ none → Involves b a → b = (a, a, (0, 0, 0))) →
      s.removeAtom x = .ok { s.killed ks with atoms := s.atoms.erase a } := by
    intro h
    have := St.forEach_killed hs.nodup ks [] (by simpa using hnd) (by
      intro b hb hd
      rw [List.nil_append, hmemE] at hb
      rcases h with h | h
      · exact absurd hd h
      · exact (hself b hb.2).2 (h b ((hval b).2 hb.1) hb.2)) hHas
    rw [St.killed_nil, List.nil_append] at this
    rw [hdef, this, Res.ok_andThen]
    have hat : (s.killed ks).atoms = s.atoms := rfl
    rw [hat, if_pos ha]
  have hbad : ¬ (s.dc ≠ some true ∨ ∀ b, s.valE b ≠ none → Involves b a → b = (a, a, (0, 0, 0))) →
      (s.removeAtom x).err ≠ none := by
    intro h
    push Not at h
    obtain ⟨hd, b, hb, hi, hne⟩ := h
    have hbk := (hval b).1 hb
    have h1 : Sum.inl b ∈ ks := (hmemE b).2 ⟨hbk, hi⟩
    have h2 : Sum.inl b.mirror ∈ ks := (hmemE _).2 ⟨hs.closed hd b hbk, by
      simp only [Involves, Bond.mirror] at hi ⊢; tauto⟩
    have := St.forEach_mirror_raises ks hs hd (fun e => hne ((hself b hi).1 e)) h1 h2
    rw [hdef]
    unfold Res.andThen
    cases he : (forEach ks St.delEntry s).err with
    | none => exact absurd he this
    | some e => simp [he]
  refine ⟨⟨fun h => ?_, fun h => by rw [hgood h]; rfl⟩, fun h => ?_⟩
  · by_contra hn
    exact hbad hn h
  · have hok := hgood (by by_contra hn; exact hbad hn h)
    rw [hok]
    refine ⟨(s.killed ks).exch, (s.killed ks).onSite, rfl, fun c => ?_, fun c => ?_⟩
    · have := St.get?_filter s.exch (fun b => decide (¬ St.Kill ks s.dc b)) c
      have e : (s.killed ks).exch = List.filter (fun q => decide (¬ St.Kill ks s.dc q.1)) s.exch := rfl
      rw [e, this]
      by_cases hc : c ∈ s.exch.keys
      · have : St.Kill ks s.dc c ↔ Involves c a := by
          unfold St.Kill
          rw [hmemE, hmemE]
          have : Involves c.mirror a ↔ Involves c a := by
            simp only [Involves, Bond.mirror]; tauto
          rw [this]
          constructor
          · rintro (h | h)
            · exact h.2
            · exact h.2.2
          · exact fun h => Or.inl ⟨hc, h⟩
        simp only [decide_eq_true_eq, this]
        by_cases hi : Involves c a <;> simp [hi]
      · rw [get?_eq_none_iff.2 hc]; simp
    · have := St.get?_filter s.onSite (fun b => decide (Sum.inr b ∉ ks)) c
      have e : (s.killed ks).onSite = List.filter (fun q => decide (Sum.inr q.1 ∉ ks)) s.onSite := rfl
      rw [e, this]
      by_cases hc : c ∈ s.onSite.keys
      · simp only [decide_eq_true_eq, hmemS]
        by_cases hi : c = a
        · subst hi; simp [hc]
        · simp [hi]
      · rw [get?_eq_none_iff.2 hc]; simp

/-- **C17 is false of the code under double counting**: for every atom that has a bond with another
atom (or with itself in another cell) `remove_atom` raises `KeyError`, and the atom is still there. -/
theorem C17_double_counting_false (s : St K) (hs : s.Inv) (hd : s.dc = some true) (a : Atom) (ha : a ∈ s.atoms)
    (b : Bond) (hb : s.valE b ≠ none) (hi : Involves b a) (hne : b ≠ (a, a, (0, 0, 0))) :
    (s.removeAtom (.atom a)).err = some .keyError ∧ a ∈ (s.removeAtom (.atom a)).st.atoms := by
  have h0 := (C17_remove_atom_partial s hs (.atom a) a rfl ha).1
  have h1 : (s.removeAtom (.atom a)).err ≠ none := by
    intro h
    rcases h0.1 h with h | h
    · exact h hd
    · exact hne (h b hb hi)
  unfold St.removeAtom at h1 ⊢
  simp only [St.find] at h1 ⊢
  generalize (((s.exch.keys.filter fun b => b.1 = a ∨ b.2.1 = a).map Sum.inl) ++
      (if s.onSite.get? a ≠ none then [Sum.inr a] else []) : List (Bond ⊕ Atom)) = ks at *
  have hat : (forEach ks St.delEntry s).st.atoms = s.atoms :=
    forEach_inv (P := fun t : St K => t.atoms = s.atoms) (fun k t ht => (St.delEntry_atoms k t).trans ht) _ _ rfl
  unfold Res.andThen at h1 ⊢
  cases he : (forEach ks St.delEntry s).err with
  | some e =>
    obtain rfl := St.forEach_delEntry_err ks s e he
    simp only [he]
    exact ⟨trivial, by rw [hat]; exact ha⟩
  | none =>
    simp only [he, hat, ha, if_true] at h1
    exact absurd rfl h1

open HistoryExample DictExample in
/-- C17: without double counting Fe1 can be removed, with double counting it cannot. -/
example : (s2.Inv ∧ s2.find (.name "Fe1") = .ok fe1 ∧ fe1 ∈ s2.atoms ∧ s2.dc = some false ∧
      s2.valE (fe1, fe2, (1, 0, 0)) ≠ none ∧ (s2.removeAtom (.name "Fe1")).err = none) ∧
    (s1.Inv ∧ s1.dc = some true ∧ fe1 ∈ s1.atoms ∧ s1.valE (fe1, fe2, (1, 0, 0)) ≠ none ∧
      Involves (fe1, fe2, (1, 0, 0)) fe1) :=
  ⟨⟨s2_inv, by decide +kernel, by decide +kernel, by decide +kernel, by decide +kernel, by decide +kernel⟩,
   ⟨s1_inv, by decide +kernel, by decide +kernel, by decide +kernel, by decide⟩⟩

/-! ### C18 -/

/-- The three conditions of `filter` for a parameter with the given distance. -/
def Passes [LinearOrder K] (maxD minD : Option K) (custom : Option (M3 K → Bool)) (d : K) (m : M3 K) : Prop :=
  (∀ x, maxD = some x → d ≤ x) ∧ (∀ x, minD = some x → x ≤ d) ∧ (∀ f, custom = some f → f m = true)

namespace St

theorem mem_filterSet_inl [LinearOrder K] {s : St K} (hs : s.KeysNodup) (maxD minD : Option K)
    (custom : Option (M3 K → Bool)) (b : Bond) :
    Sum.inl b ∈ s.filterSet maxD minD custom ↔
      ∃ m, s.valE b = some m ∧ ¬ Passes maxD minD custom (s.dist b) m := by
  unfold filterSet
  simp only [List.mem_append, List.mem_filterMap]
  constructor
  · rintro (⟨⟨c, r⟩, hc, h⟩ | ⟨⟨c, r⟩, hc, h⟩)
    · split_ifs at h with hcond
      · cases h
        have hg := get?_of_mem hs.exch hc
        refine ⟨s.cell r, by unfold valE; rw [hg]; rfl, ?_⟩
        rintro ⟨h1, h2, h3⟩
        rcases hcond with ⟨x, hx, hlt⟩ | ⟨x, hx, hlt⟩ | ⟨f, hf, hlt⟩
        · exact absurd (h1 x hx) (not_le.2 hlt)
        · exact absurd (h2 x hx) (not_le.2 hlt)
        · rw [h3 f hf] at hlt; cases hlt
    · split_ifs at h
      cases h
  · rintro ⟨m, hm, hn⟩
    left
    unfold valE at hm
    rw [Option.map_eq_some_iff] at hm
    obtain ⟨r, hr, rfl⟩ := hm
    refine ⟨(b, r), mem_of_get? hr, ?_⟩
    rw [if_pos]
    by_contra hcon
    push Not at hcon
    apply hn
    refine ⟨fun x hx => hcon.1 x hx, fun x hx => hcon.2.1 x hx, fun f hf => ?_⟩
    have := hcon.2.2 f hf
    simpa using this

theorem mem_filterSet_inr [LinearOrder K] {s : St K} (hs : s.KeysNodup) (maxD minD : Option K)
    (custom : Option (M3 K → Bool)) (a : Atom) :
    Sum.inr a ∈ s.filterSet maxD minD custom ↔
      ∃ m, s.valO a = some m ∧ ¬ Passes none minD custom 0 m := by
  unfold filterSet
  simp only [List.mem_append, List.mem_filterMap]
  constructor
  · rintro (⟨⟨c, r⟩, hc, h⟩ | ⟨⟨c, r⟩, hc, h⟩)
    · split_ifs at h
      cases h
    · split_ifs at h with hcond
      · cases h
        have hg := get?_of_mem hs.site hc
        refine ⟨s.cell r, by unfold valO; rw [hg]; rfl, ?_⟩
        rintro ⟨_, h2, h3⟩
        rcases hcond with ⟨x, hx, hlt⟩ | ⟨f, hf, hlt⟩
        · exact absurd (h2 x hx) (not_le.2 hlt)
        · rw [h3 f hf] at hlt; cases hlt
  · rintro ⟨m, hm, hn⟩
    right
    unfold valO at hm
    rw [Option.map_eq_some_iff] at hm
    obtain ⟨r, hr, rfl⟩ := hm
    refine ⟨(a, r), mem_of_get? hr, ?_⟩
    rw [if_pos]
    by_contra hcon
    push Not at hcon
    apply hn
    refine ⟨fun x hx => (by cases hx), fun x hx => hcon.1 x hx, fun f hf => ?_⟩
    have := hcon.2 f hf
    simpa using this

theorem filter_eq_killed [LinearOrder K] {s : St K} (hs : s.KeysNodup) (maxD minD : Option K)
    (custom : Option (M3 K → Bool)) (order : List (Bond ⊕ Atom) → List (Bond ⊕ Atom))
    (ho : ∀ l, (order l).Perm l) :
    s.filter maxD minD custom order = .ok (s.killed (order (s.filterSet maxD minD custom))) := by
  have := forEach_catch_killed hs (order (s.filterSet maxD minD custom)) [] (by
    intro k hk
    rw [(ho _).mem_iff] at hk
    cases k with
    | inl b =>
      obtain ⟨m, hm, _⟩ := (mem_filterSet_inl hs _ _ _ b).1 hk
      by_contra hn
      have : s.exch.get? b = none := get?_eq_none_iff.2 hn
      unfold valE at hm
      rw [this] at hm
      cases hm
    | inr a =>
      obtain ⟨m, hm, _⟩ := (mem_filterSet_inr hs _ _ _ a).1 hk
      by_contra hn
      have : s.onSite.get? a = none := get?_eq_none_iff.2 hn
      unfold valO at hm
      rw [this] at hm
      cases hm)
  rw [killed_nil, List.nil_append] at this
  exact this

end St

/-- **C18 (order).** The result does not depend on the iteration order of the internal set. -/
theorem C18_order_independent [LinearOrder K] (s : St K) (hs : s.KeysNodup) (maxD minD : Option K)
    (custom : Option (M3 K → Bool)) (o₁ o₂ : List (Bond ⊕ Atom) → List (Bond ⊕ Atom))
    (h₁ : ∀ l, (o₁ l).Perm l) (h₂ : ∀ l, (o₂ l).Perm l) :
    s.filter maxD minD custom o₁ = s.filter maxD minD custom o₂ := by
  classical
  rw [St.filter_eq_killed hs _ _ _ _ h₁, St.filter_eq_killed hs _ _ _ _ h₂]
  congr 1
  have hmem : ∀ k, k ∈ o₁ (s.filterSet maxD minD custom) ↔ k ∈ o₂ (s.filterSet maxD minD custom) := fun k => by
    rw [(h₁ _).mem_iff, (h₂ _).mem_iff]
  refine St.killed_congr ?_ ?_
  · apply List.filter_congr
    intro p _
    rw [Bool.eq_iff_iff, decide_eq_true_iff, decide_eq_true_iff]
    unfold St.Kill
    rw [hmem, hmem]
  · apply List.filter_congr
    intro p _
    rw [Bool.eq_iff_iff, decide_eq_true_iff, decide_eq_true_iff, hmem]

/-- **C18 (what is kept).** `filter` never raises; a bond is kept, as the same object, iff it passes
all conditions and, with double counting, so does its mirror; an on-site term is kept iff it passes
`min_distance` (with distance zero) and `custom_filter`; the order of what is kept, the heap, the
notation and the atoms do not change. -/
theorem C18_filter [LinearOrder K] (s : St K) (hs : s.KeysNodup) (maxD minD : Option K)
    (custom : Option (M3 K → Bool)) (order : List (Bond ⊕ Atom) → List (Bond ⊕ Atom))
    (ho : ∀ l, (order l).Perm l) :
    ∃ d o, s.filter maxD minD custom order = .ok { s with exch := d, onSite := o } ∧
      d.Sublist s.exch ∧ o.Sublist s.onSite ∧
      (∀ b r, d.get? b = some r ↔ s.exch.get? b = some r ∧ Passes maxD minD custom (s.dist b) (s.cell r) ∧
        (s.dc = some true → ∀ m, s.valE b.mirror = some m → Passes maxD minD custom (s.dist b.mirror) m)) ∧
      (∀ a r, o.get? a = some r ↔ s.onSite.get? a = some r ∧ Passes none minD custom 0 (s.cell r)) := by
  classical
  refine ⟨_, _, St.filter_eq_killed hs _ _ _ _ ho, List.filter_sublist, List.filter_sublist, ?_, ?_⟩
  · intro b r
    have e := St.get?_filter s.exch
      (fun b => decide (¬ St.Kill (order (s.filterSet maxD minD custom)) s.dc b)) b
    rw [e]
    have hv : ∀ c : Bond, ∀ m, s.valE c = some m ↔ ∃ r, s.exch.get? c = some r ∧ s.cell r = m := by
      intro c m
      unfold St.valE
      rw [Option.map_eq_some_iff]
    have hkill : St.Kill (order (s.filterSet maxD minD custom)) s.dc b ↔
        (∃ m, s.valE b = some m ∧ ¬ Passes maxD minD custom (s.dist b) m) ∨
        (s.dc = some true ∧ ∃ m, s.valE b.mirror = some m ∧ ¬ Passes maxD minD custom (s.dist b.mirror) m) := by
      unfold St.Kill
      rw [(ho _).mem_iff, (ho _).mem_iff, St.mem_filterSet_inl hs, St.mem_filterSet_inl hs]
    constructor
    · intro h
      split_ifs at h with hk
      rw [decide_eq_true_iff, hkill] at hk
      push Not at hk
      exact ⟨h, hk.1 _ ((hv _ _).2 ⟨r, h, rfl⟩), hk.2⟩
    · rintro ⟨h1, h2, h3⟩
      rw [if_pos, h1]
      rw [decide_eq_true_iff, hkill]
      push Not
      refine ⟨fun m hm => ?_, h3⟩
      obtain ⟨r', hr', rfl⟩ := (hv _ _).1 hm
      rw [h1] at hr'
      cases hr'
      exact h2
  · intro a r
    have e := St.get?_filter s.onSite (fun b => decide (Sum.inr b ∉ order (s.filterSet maxD minD custom))) a
    rw [e]
    have hkill : Sum.inr a ∈ order (s.filterSet maxD minD custom) ↔
        (∃ m, s.valO a = some m ∧ ¬ Passes none minD custom 0 m) := by
      rw [(ho _).mem_iff, St.mem_filterSet_inr hs]
    constructor
    · intro h
      split_ifs at h with hk
      rw [decide_eq_true_iff, hkill] at hk
      push Not at hk
      exact ⟨h, hk _ (by unfold St.valO; rw [h]; rfl)⟩
    · rintro ⟨h1, h2⟩
      rw [if_pos, h1]
      rw [decide_eq_true_iff, hkill]
      push Not
      intro m hm
      unfold St.valO at hm
      rw [h1] at hm
      cases hm
      exact h2

/-- **C18 (`filtered`).** The original Hamiltonian keeps all its values; the new one has the values that
`filter` would leave in the original. -/
theorem C18_filtered [LinearOrder K] (s : St K) (hs : s.KeysNodup) (ha : s.Alloc) (maxD minD : Option K)
    (custom : Option (M3 K → Bool)) (o₁ o₂ : List (Bond ⊕ Atom) → List (Bond ⊕ Atom))
    (h₁ : ∀ l, (o₁ l).Perm l) (h₂ : ∀ l, (o₂ l).Perm l) :
    (s.filtered maxD minD custom o₁).err = none ∧
    (∀ b, (s.seenIn (s.filtered maxD minD custom o₁).st).valE b = s.valE b) ∧
    (∀ a, (s.seenIn (s.filtered maxD minD custom o₁).st).valO a = s.valO a) ∧
    (∀ b, (s.filtered maxD minD custom o₁).st.valE b = (s.filter maxD minD custom o₂).st.valE b) ∧
    (∀ a, (s.filtered maxD minD custom o₁).st.valO a = (s.filter maxD minD custom o₂).st.valO a) := by
  obtain ⟨d, o, h, _, _, hE, hO⟩ := C18_filter s.copy (St.copy_keysNodup hs) maxD minD custom o₁ h₁
  obtain ⟨d', o', h', _, _, hE', hO'⟩ := C18_filter s hs maxD minD custom o₂ h₂
  unfold St.filtered
  rw [h, h']
  have hdist : s.copy.dist = s.dist := rfl
  have hdc : s.copy.dc = s.dc := rfl
  have hcg : ∀ b, s.copy.exch.get? b = (s.exch.get? b).map (· + s.next) :=
    fun b => get?_mapVal s.exch (fun r => r + s.next) b
  have hcg' : ∀ b, s.copy.onSite.get? b = (s.onSite.get? b).map (· + s.next) :=
    fun b => get?_mapVal s.onSite (fun r => r + s.next) b
  have hiE : ∀ b r, d.get? b = some (r + s.next) ↔ d'.get? b = some r := by
    intro b r
    rw [hE, hE', hdist, hdc, St.copy_cell_new, hcg]
    simp only [St.copy_valE]
    have : (s.exch.get? b).map (· + s.next) = some (r + s.next) ↔ s.exch.get? b = some r := by
      cases s.exch.get? b <;> simp
    rw [this]
  have hiO : ∀ b r, o.get? b = some (r + s.next) ↔ o'.get? b = some r := by
    intro b r
    rw [hO, hO', St.copy_cell_new, hcg']
    have : (s.onSite.get? b).map (· + s.next) = some (r + s.next) ↔ s.onSite.get? b = some r := by
      cases s.onSite.get? b <;> simp
    rw [this]
  refine ⟨rfl, fun b => ?_, fun a => ?_, fun b => ?_, fun a => ?_⟩
  · simp only [St.valE, St.seenIn, Res.st_ok]
    cases hg : s.exch.get? b with
    | none => rfl
    | some r => simp [St.copy_cell_old s (ha.exch b r hg)]
  · simp only [St.valO, St.seenIn, Res.st_ok]
    cases hg : s.onSite.get? a with
    | none => rfl
    | some r => simp [St.copy_cell_old s (ha.site a r hg)]
  · simp only [St.valE, Res.st_ok]
    cases hg' : d'.get? b with
    | some r => rw [(hiE b r).2 hg']; simp [St.copy_cell_new]
    | none =>
      cases hg : d.get? b with
      | none => rfl
      | some q =>
        have h1 := ((hE b q).1 hg).1
        rw [hcg, Option.map_eq_some_iff] at h1
        obtain ⟨r, _, rfl⟩ := h1
        rw [(hiE b r).1 hg] at hg'
        cases hg'
  · simp only [St.valO, Res.st_ok]
    cases hg' : o'.get? a with
    | some r => rw [(hiO a r).2 hg']; simp [St.copy_cell_new]
    | none =>
      cases hg : o.get? a with
      | none => rfl
      | some q =>
        have h1 := ((hO a q).1 hg).1
        rw [hcg', Option.map_eq_some_iff] at h1
        obtain ⟨r, _, rfl⟩ := h1
        rw [(hiO a r).1 hg] at hg'
        cases hg'

open HistoryExample DictExample in
/-- C18: a filter that keeps Fe2-Fe2 and removes Fe1-Fe2 with its mirror, although the mirror passes;
the order of the set is reversed. -/
example : s1.KeysNodup ∧ (∀ l : List (Bond ⊕ Atom), l.reverse.Perm l) ∧
    (s1.filter none none (some fun M => decide (M 0 1 ≠ -25 / 2)) List.reverse).st.exch.length = 2 ∧
    (s1.filter none none (some fun M => decide (M 0 1 ≠ -25 / 2)) List.reverse).st.onSite.length = 1 :=
  ⟨s1_inv.nodup, fun l => List.reverse_perm l, by decide +kernel, by decide +kernel⟩

/-! ### C20 -/

/-- **C20.** `magnetic_atoms` contains exactly the atoms of the stored parameters, each once, sorted
by index. -/
theorem C20_magnetic_atoms (s : St K) (order : List Atom → List Atom) (ho : ∀ l, (order l).Perm l) :
    (∀ a, a ∈ s.magneticAtoms order ↔
      (∃ p ∈ s.exchangeItems, p.1.1 = a ∨ p.1.2.1 = a) ∨ (∃ p ∈ s.onSiteItems, p.1 = a)) ∧
    (s.magneticAtoms order).Nodup ∧
    (s.magneticAtoms order).Pairwise (fun a b => a.index ≤ b.index) := by
  unfold St.magneticAtoms
  dsimp only
  have hp := List.perm_insertionSort (fun a b : Atom => a.index ≤ b.index)
    (order ((s.exch.keys.flatMap fun b => [b.1, b.2.1]) ++ s.onSite.keys).dedup)
  refine ⟨fun a => ?_, ?_, ?_⟩
  · rw [hp.mem_iff, (ho _).mem_iff, List.mem_dedup, List.mem_append, List.mem_flatMap]
    apply or_congr
    · constructor
      · rintro ⟨b, hb, h⟩
        obtain ⟨r, hr⟩ := List.mem_map.1 hb
        refine ⟨(r.1, s.cell r.2), List.mem_map.2 ⟨r, hr.1, rfl⟩, ?_⟩
        rw [hr.2]
        simp at h
        tauto
      · rintro ⟨p, hp, h⟩
        obtain ⟨q, hq, rfl⟩ := List.mem_map.1 hp
        refine ⟨q.1, List.mem_map_of_mem hq, ?_⟩
        simp
        tauto
    · constructor
      · intro h
        obtain ⟨q, hq, rfl⟩ := List.mem_map.1 h
        exact ⟨(q.1, s.cell q.2), List.mem_map.2 ⟨q, hq, rfl⟩, rfl⟩
      · rintro ⟨p, hp, rfl⟩
        obtain ⟨q, hq, rfl⟩ := List.mem_map.1 hp
        exact List.mem_map_of_mem hq
  · rw [hp.nodup_iff, (ho _).nodup_iff]
    exact List.nodup_dedup _
  · have : Std.Total (fun a b : Atom => a.index ≤ b.index) := ⟨fun a b => le_total _ _⟩
    have : IsTrans Atom (fun a b : Atom => a.index ≤ b.index) := ⟨fun a b c => le_trans⟩
    exact List.pairwise_insertionSort _ _

/-- **C20.** With distinct indices the list does not depend on the iteration order of the set; its
length `I` never does. -/
theorem C20_order_independent (s : St K) (o₁ o₂ : List Atom → List Atom) (h₁ : ∀ l, (o₁ l).Perm l)
    (h₂ : ∀ l, (o₂ l).Perm l) :
    (s.magneticAtoms o₁).length = (s.magneticAtoms o₂).length ∧
    ((∀ a ∈ s.magneticAtoms o₁, ∀ b ∈ s.magneticAtoms o₁, a.index = b.index → a = b) →
      s.magneticAtoms o₁ = s.magneticAtoms o₂) := by
  obtain ⟨m1, n1, p1⟩ := C20_magnetic_atoms s o₁ h₁
  obtain ⟨m2, n2, p2⟩ := C20_magnetic_atoms s o₂ h₂
  have hperm : (s.magneticAtoms o₁).Perm (s.magneticAtoms o₂) := by
    rw [List.perm_ext_iff_of_nodup n1 n2]
    intro a
    rw [m1, m2]
  refine ⟨hperm.length_eq, fun hinj => ?_⟩
  refine List.Perm.eq_of_pairwise ?_ p1 p2 hperm
  intro a b ha hb hab hba
  exact hinj a ha b (hperm.mem_iff.2 hb) (le_antisymm hab hba)

open HistoryExample DictExample in
example : s1.magneticAtoms List.reverse = [fe1, fe2] := by decide +kernel

end Magnopy
