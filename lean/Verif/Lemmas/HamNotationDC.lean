import Verif.Lemmas.HamNotation
import Mathlib.Algebra.BigOperators.Group.Finset.Basic
import Mathlib.Algebra.BigOperators.Ring.Finset

/-!
# What assigning `double_counting` does to the stored values, and to the energy
-/

set_option autoImplicit false

set_option linter.unusedSectionVars false

namespace Magnopy

open PyDict

namespace St

variable {K : Type*} [Field K]

theorem valE_eq_none_iff {s : St K} {b : Bond} : s.valE b = none ↔ b ∉ s.exch.keys := by
  simp [valE, get?_eq_none_iff]

theorem isSome_valE_iff {s : St K} {b : Bond} : (s.valE b).isSome ↔ b ∈ s.exch.keys := by
  simp [valE, isSome_get?_iff]

/-- The values after `double_counting.setter`. -/
def dcMap (old : Option Bool) (new : Bool) (v : Bond → Option (M3 K)) (b : Bond) : Option (M3 K) :=
  if new then
    ((v b.mirror).map fun m => (dcFactor old new : K) • m.transpose).or ((v b).map fun m => (dcFactor old new : K) • m)
  else if keeps b = false ∨ ((v b.mirror).isSome ∧ keeps b.mirror = true) then none
  else (v b).map fun m => (dcFactor old new : K) • m

/-- What `double_counting.setter` does when it does not raise. -/
theorem setDC_ok {s : St K} (hk : s.KeysNodup) (hr : s.Refer) (ha : s.Alloc) (hs : s.NoShare) (new : Bool)
    (hcl : new = false → ∀ b ∈ s.exch.keys, keeps b = false → b.mirror ∈ s.exch.keys) :
    ∃ t, s.setDC new = .ok t ∧ t.toHam = { s.toHam with dc := some new, exch := t.exch } ∧
      t.KeysNodup ∧ t.Refer ∧ t.Alloc ∧ t.NoShare ∧ s.next ≤ t.next ∧
      (∀ b, t.valE b = dcMap s.dc new s.valE b) ∧ ∀ a, t.valO a = s.valO a := by
  rw [setDC_eq hk]
  have hf := dcScaled_toHam s new
  have hv := dcScaled_valE hk hs new
  have hk1 : (s.dcScaled new).KeysNodup := KeysNodup.congr (s := { s with dc := some new }) hf.1 ⟨hk.exch, hk.site⟩
  have hr1 : (s.dcScaled new).Refer := Refer.congr (s := { s with dc := some new }) hf.1 ⟨hr.exch, hr.site⟩
  have ha1 : (s.dcScaled new).Alloc := Alloc.congr (s := { s with dc := some new }) hf.1 hf.2 ⟨ha.exch, ha.site⟩
  have hs1 : (s.dcScaled new).NoShare :=
    NoShare.congr (s := { s with dc := some new }) hf.1 ⟨hs.exch, hs.site, hs.cross⟩
  have hex : (s.dcScaled new).exch = s.exch := (congrArg Ham.exch hf.1 :)
  cases new with
  | true =>
    simp only [if_true]
    refine ⟨_, ensureDC_eq hr1, ?_, ensuredDC_keysNodup hk1, ensuredDC_refer hk1 hr1, ensuredDC_alloc hk1 ha1,
      ensuredDC_noShare hk1 ha1 hs1, ?_, ?_, ?_⟩
    · obtain ⟨h1, h2, h3, h4, h5, h6, h7, h8⟩ := ensuredDC_frame (s.dcScaled true)
      have e : ∀ x y : Ham K, x.atoms = y.atoms → x.exch = y.exch → x.onSite = y.onSite → x.dc = y.dc →
          x.sn = y.sn → x.ef = y.ef → x.osf = y.osf → x.spin = y.spin → x.dist = y.dist → x = y := by
        rintro ⟨⟩ ⟨⟩; simp only; rintro rfl rfl rfl rfl rfl rfl rfl rfl rfl; rfl
      apply e
      · exact h2.trans (congrArg Ham.atoms hf.1 :)
      · rfl
      · exact h1.trans (congrArg Ham.onSite hf.1 :)
      · exact h3.trans (congrArg Ham.dc hf.1 :)
      · exact h4.trans (congrArg Ham.sn hf.1 :)
      · exact h5.trans (congrArg Ham.ef hf.1 :)
      · exact h6.trans (congrArg Ham.osf hf.1 :)
      · exact h7.trans (congrArg Ham.spin hf.1 :)
      · exact h8.trans (congrArg Ham.dist hf.1 :)
    · rw [ensuredDC_next, hf.2]; omega
    · intro b
      rw [ensuredDC_valE hk1 ha1, hv.1, hv.1, dcMap, if_pos rfl, Option.map_map]
      congr 1
    · intro a
      rw [ensuredDC_valO ha1, hv.2]
  | false =>
    simp only [Bool.false_eq_true, if_false]
    obtain ⟨rem, hrem⟩ := (collectRemovals_ok_iff (s.dcScaled false) (s.dcScaled false).exch.keys).2 (by
      rw [hex]; exact hcl rfl)
    have hdc : (s.dcScaled false).dc ≠ some true := by rw [(congrArg Ham.dc hf.1 :)]; simp
    have hi := ensuredNoDC_inv hk1 rem
    refine ⟨_, ensureNoDC_eq hdc hrem, ?_, hi.1, hi.2.2.2 hr1, hi.2.1 ha1, hi.2.2.1 hs1, ?_, ?_, ?_⟩
    · have : ((s.dcScaled false).ensuredNoDC rem).toHam =
          { (s.dcScaled false).toHam with exch := ((s.dcScaled false).ensuredNoDC rem).exch } := rfl
      rw [this, hf.1]
    · exact le_of_eq hf.2.symm
    · intro b
      rw [ensuredNoDC_valE hk1 hrem, hv.1, hex]
      simp only [dcMap, Bool.false_eq_true, if_false]
      refine if_congr ?_ rfl rfl
      rw [isSome_valE_iff]
    · intro a
      exact hv.2 a

/-- The values after the setter, from a well-formed state. -/
theorem dcMap_wf {s : St K} (hs : s.WellFormed) {old : Bool} (ho : s.dc = some old) (new : Bool)
    (b : Bond) : dcMap s.dc new s.valE b =
      match old, new with
      | true, true => s.valE b
      | false, false => s.valE b
      | false, true => ((s.valE b.mirror).map fun m => (1 / 2 : K) • m.transpose).or
          ((s.valE b).map fun m => (1 / 2 : K) • m)
      | true, false => if keeps b = true then (s.valE b).map fun m => (2 : K) • m else none := by
  have hkm : ∀ b ∈ s.exch.keys, keeps b.mirror = !keeps b := fun b hb =>
    keeps_mirror (hs.noSelf b hb) (hs.index _ (hs.refer.exch b hb).1 _ (hs.refer.exch b hb).2)
  have hnone : ∀ f : M3 K → M3 K, b ∉ s.exch.keys → (s.valE b).map f = none := fun f hb => by
    rw [valE_eq_none_iff.2 hb]; rfl
  cases old <;> cases new
  · have e : (dcFactor (some false) false : K) = 1 := by simp [dcFactor]
    simp only [dcMap, ho, e, one_smul, Option.map_id', Bool.false_eq_true, if_false]
    by_cases hb : b ∈ s.exch.keys
    · have h1 : keeps b = true := (keeps_iff b).2 (hs.once ho b hb)
      have h2 : keeps b.mirror = false := by rw [hkm b hb, h1]; rfl
      simp [h1, h2]
    · simp [valE_eq_none_iff.2 hb]
  · have e : (dcFactor (some false) true : K) = 1 / 2 := by simp [dcFactor]
    simp only [dcMap, ho, e, if_true]
  · have e : (dcFactor (some true) false : K) = 2 := by simp [dcFactor]
    simp only [dcMap, ho, e, Bool.false_eq_true, if_false]
    by_cases hb : b ∈ s.exch.keys
    · cases h1 : keeps b with
      | true => simp [hkm b hb, h1]
      | false => simp
    · simp [valE_eq_none_iff.2 hb]
  · have e : (dcFactor (some true) true : K) = 1 := by simp [dcFactor]
    simp only [dcMap, ho, e, one_smul, if_true]
    have := hs.twice ho b
    rw [this, Option.map_map]
    cases s.valE b <;> simp [Matrix.transpose_transpose]

theorem closed_of_wf {s : St K} (hs : s.WellFormed) {old : Bool} (ho : s.dc = some old) (b : Bond)
    (hb : b ∈ s.exch.keys) (hkb : keeps b = false) : b.mirror ∈ s.exch.keys := by
  cases old with
  | true =>
    have := hs.twice ho b
    rw [← isSome_valE_iff, this, Option.isSome_map, isSome_valE_iff]; exact hb
  | false =>
    have := (keeps_iff b).2 (hs.once ho b hb)
    rw [hkb] at this; cases this

/-- With double counting off no mirror is stored. -/
theorem mirror_notMem {s : St K} (hs : s.WellFormed) (ho : s.dc = some false) {b : Bond}
    (hb : b ∈ s.exch.keys) : b.mirror ∉ s.exch.keys := by
  intro h
  have h1 := (keeps_iff b).2 (hs.once ho b hb)
  have h2 := (keeps_iff _).2 (hs.once ho _ h)
  rw [keeps_mirror (hs.noSelf b hb) (hs.index _ (hs.refer.exch b hb).1 _ (hs.refer.exch b hb).2), h1] at h2
  cases h2

theorem WellFormed.paired {s : St K} (hs : s.WellFormed) : s.Paired :=
  ⟨hs.toSound, hs.twice, fun ho _ hb => mirror_notMem hs ho hb⟩

theorem Paired.wf_of_true {s : St K} (hs : s.Paired) (hd : s.dc = some true) : s.WellFormed :=
  ⟨hs.toSound, hs.twice, fun h => by rw [hd] at h; cases h⟩

/-- Switching double counting on, from either orientation of every bond. -/
theorem setDC_on {s : St K} (hs : s.Paired) (ho : s.dc = some false) :
    ∃ t, s.setDC true = .ok t ∧ t.toHam = { s.toHam with dc := some true, exch := t.exch } ∧ t.WellFormed ∧
      (∀ b, t.valE b = ((s.valE b.mirror).map fun m => (1 / 2 : K) • m.transpose).or
          ((s.valE b).map fun m => (1 / 2 : K) • m)) ∧ ∀ a, t.valO a = s.valO a := by
  obtain ⟨t, h1, hh, hk, hr, ha, hn, -, hv, hv'⟩ := setDC_ok hs.keys hs.refer hs.alloc hs.noShare true
    (fun e => by cases e)
  have e : (dcFactor (some false) true : K) = 1 / 2 := by simp [dcFactor]
  have hv : ∀ b, t.valE b = ((s.valE b.mirror).map fun m => (1 / 2 : K) • m.transpose).or
      ((s.valE b).map fun m => (1 / 2 : K) • m) := fun b => by
    rw [hv]; simp only [dcMap, ho, e, if_true]
  refine ⟨t, h1, hh, ⟨⟨hk, hr, ha, hn, ?_, ?_⟩, ?_, ?_⟩, hv, hv'⟩
  · rw [(congrArg Ham.atoms hh :)]; exact hs.index
  · intro b hb
    rw [← isSome_valE_iff, hv] at hb
    have : b ∈ s.exch.keys ∨ b.mirror ∈ s.exch.keys := by
      by_contra h
      rw [not_or, ← valE_eq_none_iff, ← valE_eq_none_iff] at h
      rw [h.1, h.2] at hb
      simp at hb
    rcases this with h | h
    · exact hs.noSelf b h
    · have := hs.noSelf _ h
      rw [Bond.mirror_mirror] at this
      exact fun e => this e.symm
  · intro _ b
    rw [hv, hv, Bond.mirror_mirror]
    by_cases hb : b ∈ s.exch.keys
    · have hm := hs.single ho b hb
      rw [valE_eq_none_iff.2 hm]
      obtain ⟨m, hm'⟩ := Option.isSome_iff_exists.1 (isSome_valE_iff.2 hb)
      simp [hm']
    · rw [valE_eq_none_iff.2 hb]
      cases s.valE b.mirror <;> simp [Matrix.transpose_transpose]
  · intro hd
    rw [(congrArg Ham.dc hh :)] at hd
    cases hd

/-- Assigning `double_counting` to a well-formed Hamiltonian succeeds and keeps it well-formed. -/
theorem setDC_wf {s : St K} (hs : s.WellFormed) {old : Bool} (ho : s.dc = some old) (new : Bool) :
    ∃ t, s.setDC new = .ok t ∧ t.toHam = { s.toHam with dc := some new, exch := t.exch } ∧ t.WellFormed ∧
      s.next ≤ t.next ∧
      (∀ b, t.valE b = dcMap s.dc new s.valE b) ∧ ∀ a, t.valO a = s.valO a := by
  obtain ⟨t, h1, hh, hk, hr, ha, hn, hnx, hv, hv'⟩ := setDC_ok hs.keys hs.refer hs.alloc hs.noShare new
    (fun _ => closed_of_wf hs ho)
  refine ⟨t, h1, hh, ⟨⟨hk, hr, ha, hn, ?_, ?_⟩, ?_, ?_⟩, hnx, hv, hv'⟩
  · rw [(congrArg Ham.atoms hh :)]; exact hs.index
  · intro b hb
    rw [← isSome_valE_iff, hv, dcMap_wf hs ho] at hb
    have : b ∈ s.exch.keys ∨ b.mirror ∈ s.exch.keys := by
      by_contra h
      rw [not_or, ← valE_eq_none_iff, ← valE_eq_none_iff] at h
      rw [h.1, h.2] at hb
      revert hb
      cases old <;> cases new <;> simp
    rcases this with h | h
    · exact hs.noSelf b h
    · have := hs.noSelf _ h
      rw [Bond.mirror_mirror] at this
      exact fun e => this e.symm
  · intro hd b
    rw [(congrArg Ham.dc hh :)] at hd
    obtain rfl : new = true := by simpa using hd
    rw [hv, hv, dcMap_wf hs ho, dcMap_wf hs ho, Bond.mirror_mirror]
    cases old with
    | true => exact hs.twice ho b
    | false =>
      by_cases hb : b ∈ s.exch.keys
      · have hm := mirror_notMem hs ho hb
        rw [valE_eq_none_iff.2 hm]
        obtain ⟨m, hm'⟩ := Option.isSome_iff_exists.1 (isSome_valE_iff.2 hb)
        simp [hm']
      · rw [valE_eq_none_iff.2 hb]
        cases s.valE b.mirror <;> simp [Matrix.transpose_transpose]
  · intro hd b hb
    rw [(congrArg Ham.dc hh :)] at hd
    obtain rfl : new = false := by simpa using hd
    rw [← isSome_valE_iff, hv, dcMap_wf hs ho] at hb
    cases old with
    | true =>
      rw [← keeps_iff]
      by_contra hkb
      simp [hkb] at hb
    | false => exact hs.once ho b (isSome_valE_iff.1 hb)

end St

/-! ### Energy -/

section Energy

variable {K : Type*} [Field K] {Γ : Type*} [AddCommGroup Γ] [Fintype Γ]

theorem bilin_transpose (u v : V3 K) (J : M3 K) : bilin u J.transpose v = bilin v J u := by
  unfold bilin
  rw [Finset.sum_comm]
  refine Finset.sum_congr rfl fun i _ => Finset.sum_congr rfl fun j _ => ?_
  rw [Matrix.transpose_apply]; ring

/-- A bond read from its other end. -/
theorem Config.bond_mirror (c : Config K Γ) (b : Bond) (J : M3 K) : c.bond b.mirror J.transpose = c.bond b J := by
  unfold Config.bond
  have hR : c.τ b.mirror.2.2 = - c.τ b.2.2 := by
    rw [← map_neg]; rfl
  rw [← Equiv.sum_comp (Equiv.addRight (c.τ b.2.2))]
  refine Finset.sum_congr rfl fun n _ => ?_
  rw [hR, bilin_transpose]
  simp [Bond.mirror]

theorem bilin_smul' (u v : V3 K) (x : K) (J : M3 K) : bilin u (x • J) v = x * bilin u J v := by
  simp only [bilin, Finset.mul_sum, Matrix.smul_apply, smul_eq_mul]
  refine Finset.sum_congr rfl fun i _ => Finset.sum_congr rfl fun j _ => ?_
  ring

theorem Config.bond_smul' (c : Config K Γ) (b : Bond) (x : K) (J : M3 K) : c.bond b (x • J) = x * c.bond b J := by
  simp only [Config.bond, bilin_smul', Finset.mul_sum]

theorem Config.site_smul' (c : Config K Γ) (a : Atom) (x : K) (J : M3 K) : c.site a (x • J) = x * c.site a J := by
  simp only [Config.site, bilin_smul', Finset.mul_sum]

/-- A sum over the items of a dictionary as a sum over its set of keys. -/
theorem sum_items {α M : Type*} [DecidableEq α] {d : PyDict α ℕ} (hd : d.keys.Nodup) (cell : ℕ → M)
    (φ : α → M → K) : ((d.map fun p => (p.1, cell p.2)).map fun p => φ p.1 p.2).sum =
      ∑ k ∈ d.keys.toFinset, ((d.get? k).map cell).elim 0 (φ k) := by
  rw [List.sum_toFinset _ hd, PyDict.keys, List.map_map, List.map_map]
  congr 1
  refine List.map_congr_left fun p hp => ?_
  have : d.get? p.1 = some p.2 := get?_of_mem hd hp
  simp [this]

namespace St

theorem bonds_eq_sum {s : St K} (hk : s.KeysNodup) (c : Config K Γ) (w : Atom → K) :
    c.bonds w s.exchangeItems =
      ∑ b ∈ s.exch.keys.toFinset, (s.valE b).elim 0 fun J => w b.1 * w b.2.1 * c.bond b J :=
  sum_items hk.exch s.cell fun b J => w b.1 * w b.2.1 * c.bond b J

theorem sites_eq_sum {s : St K} (hk : s.KeysNodup) (c : Config K Γ) (w : Atom → K) :
    c.sites w s.onSiteItems =
      ∑ a ∈ s.onSite.keys.toFinset, (s.valO a).elim 0 fun J => w a * w a * c.site a J :=
  sum_items hk.site s.cell fun b J => w b * w b * c.site b J

/-- Rescaling by the weights leaves the sums unchanged. -/
theorem Scaled.bonds {s t : St K} {xe : Bond → K} {xo : Atom → K} (h : Scaled s t xe xo) (hk : s.KeysNodup)
    (c : Config K Γ) {w w' : Atom → K} {y : K}
    (hx : ∀ b ∈ s.exch.keys, w' b.1 * w' b.2.1 * xe b = y * (w b.1 * w b.2.1)) :
    c.bonds w' t.exchangeItems = y * c.bonds w s.exchangeItems := by
  rw [bonds_eq_sum (h.keysNodup hk), bonds_eq_sum hk, h.exch, Finset.mul_sum]
  refine Finset.sum_congr rfl fun b hb => ?_
  rw [List.mem_toFinset] at hb
  rw [h.valE]
  cases s.valE b with
  | none => simp
  | some J =>
    simp only [Option.map_some, Option.elim_some, Config.bond_smul']
    rw [← mul_assoc, hx b hb]; ring

theorem Scaled.sites {s t : St K} {xe : Bond → K} {xo : Atom → K} (h : Scaled s t xe xo) (hk : s.KeysNodup)
    (c : Config K Γ) {w w' : Atom → K} {y : K}
    (hx : ∀ a ∈ s.onSite.keys, w' a * w' a * xo a = y * (w a * w a)) :
    c.sites w' t.onSiteItems = y * c.sites w s.onSiteItems := by
  rw [sites_eq_sum (h.keysNodup hk), sites_eq_sum hk, h.onSite, Finset.mul_sum]
  refine Finset.sum_congr rfl fun b hb => ?_
  rw [List.mem_toFinset] at hb
  rw [h.valO]
  cases s.valO b with
  | none => simp
  | some J =>
    simp only [Option.map_some, Option.elim_some, Config.site_smul']
    rw [← mul_assoc, hx b hb]; ring

/-- Both orientations together count twice as much as the canonical ones. -/
theorem sum_twice {F : Finset Bond} (hF : ∀ b ∈ F, b.mirror ∈ F) (hk : ∀ b ∈ F, keeps b.mirror = !keeps b)
    (φ : Bond → K) (hφ : ∀ b ∈ F, φ b.mirror = φ b) :
    ∑ b ∈ F, φ b = 2 * ∑ b ∈ F with keeps b = true, φ b := by
  rw [← Finset.sum_filter_add_sum_filter_not F (fun b => keeps b = true), two_mul]
  congr 1
  refine Finset.sum_bij' (fun b _ => b.mirror) (fun b _ => b.mirror) ?_ ?_ ?_ ?_ ?_
  · intro b hb
    rw [Finset.mem_filter] at hb ⊢
    exact ⟨hF b hb.1, by rw [hk b hb.1]; simpa using hb.2⟩
  · intro b hb
    rw [Finset.mem_filter] at hb ⊢
    exact ⟨hF b hb.1, by rw [hk b hb.1]; simpa using hb.2⟩
  · intro b _; exact b.mirror_mirror
  · intro b _; exact b.mirror_mirror
  · intro b hb
    exact (hφ b (Finset.mem_filter.1 hb).1).symm

/-- Switching double counting on and off leaves the sum over bonds unchanged. -/
theorem setDC_bonds {s t : St K} (hs : s.WellFormed) (ht : t.WellFormed) (h2 : (2 : K) ≠ 0) {old new : Bool}
    (ho : s.dc = some old) (hv : ∀ b, t.valE b = dcMap s.dc new s.valE b) (c : Config K Γ) (w : Atom → K) :
    c.bonds w t.exchangeItems = c.bonds w s.exchangeItems := by
  rw [bonds_eq_sum ht.keys, bonds_eq_sum hs.keys]
  have hkm : ∀ b ∈ s.exch.keys.toFinset, keeps b.mirror = !keeps b := fun b hb => by
    rw [List.mem_toFinset] at hb
    exact keeps_mirror (hs.noSelf b hb) (hs.index _ (hs.refer.exch b hb).1 _ (hs.refer.exch b hb).2)
  have hkt : ∀ b ∈ t.exch.keys.toFinset, keeps b.mirror = !keeps b := fun b hb => by
    rw [List.mem_toFinset] at hb
    exact keeps_mirror (ht.noSelf b hb) (ht.index _ (ht.refer.exch b hb).1 _ (ht.refer.exch b hb).2)
  have hφ : ∀ (b : Bond) (J : M3 K), w b.mirror.1 * w b.mirror.2.1 * c.bond b.mirror J.transpose =
      w b.1 * w b.2.1 * c.bond b J := fun b J => by
    rw [Config.bond_mirror]; simp only [Bond.mirror]; ring
  have hmem : ∀ b, b ∈ t.exch.keys.toFinset ↔ (dcMap s.dc new s.valE b).isSome := fun b => by
    rw [List.mem_toFinset, ← isSome_valE_iff, hv]
  cases old <;> cases new
  · have he : ∀ b, t.valE b = s.valE b := fun b => by rw [hv, dcMap_wf hs ho]
    have : t.exch.keys.toFinset = s.exch.keys.toFinset := by
      ext b; rw [List.mem_toFinset, List.mem_toFinset, ← isSome_valE_iff, ← isSome_valE_iff, he]
    rw [this]
    exact Finset.sum_congr rfl fun b _ => by rw [he]
  · -- off to on: use the result about both orientations for `t`
    have hT : ∀ b ∈ t.exch.keys.toFinset, b.mirror ∈ t.exch.keys.toFinset := fun b hb => by
      rw [hmem, dcMap_wf hs ho] at hb ⊢
      rw [Bond.mirror_mirror]
      cases h1 : s.valE b <;> cases h3 : s.valE b.mirror <;> simp [h1, h3] at hb ⊢
    rw [sum_twice hT hkt]
    · have : (t.exch.keys.toFinset.filter fun b => keeps b = true) = s.exch.keys.toFinset := by
        ext b
        rw [Finset.mem_filter, hmem, dcMap_wf hs ho, List.mem_toFinset, ← isSome_valE_iff]
        constructor
        · rintro ⟨h1, h3⟩
          cases h4 : s.valE b.mirror with
          | none => simpa [h4] using h1
          | some m =>
            exfalso
            have hm : b.mirror ∈ s.exch.keys := isSome_valE_iff.1 (by rw [h4]; rfl)
            have := (keeps_iff _).2 (hs.once ho _ hm)
            have e := hkm _ (List.mem_toFinset.2 hm)
            rw [Bond.mirror_mirror, this, h3] at e
            cases e
        · intro h
          refine ⟨?_, (keeps_iff b).2 (hs.once ho b (isSome_valE_iff.1 h))⟩
          cases h4 : s.valE b.mirror <;> simp [h]
      rw [this, Finset.mul_sum]
      refine Finset.sum_congr rfl fun b hb => ?_
      rw [List.mem_toFinset] at hb
      rw [hv, dcMap_wf hs ho]
      simp only
      rw [valE_eq_none_iff.2 (mirror_notMem hs ho hb)]
      cases s.valE b with
      | none => simp
      | some J =>
        simp only [Option.map_none, Option.map_some, Option.none_or, Option.elim_some, Config.bond_smul']
        field_simp
    · intro b hb
      have hdt : t.valE b.mirror = (t.valE b).map Matrix.transpose := by
        rw [hv, hv, dcMap_wf hs ho, dcMap_wf hs ho, Bond.mirror_mirror]
        by_cases hb' : b ∈ s.exch.keys
        · rw [valE_eq_none_iff.2 (mirror_notMem hs ho hb')]
          cases s.valE b <;> simp
        · rw [valE_eq_none_iff.2 hb']
          cases s.valE b.mirror <;> simp [Matrix.transpose_transpose]
      rw [hdt]
      cases t.valE b with
      | none => rfl
      | some J => exact hφ b J
  · -- on to off
    have hT : ∀ b ∈ s.exch.keys.toFinset, b.mirror ∈ s.exch.keys.toFinset := fun b hb => by
      rw [List.mem_toFinset, ← isSome_valE_iff] at hb ⊢
      rw [hs.twice ho]; simpa using hb
    rw [sum_twice hT hkm]
    · have : t.exch.keys.toFinset = s.exch.keys.toFinset.filter fun b => keeps b = true := by
        ext b
        rw [Finset.mem_filter, hmem, dcMap_wf hs ho, List.mem_toFinset, ← isSome_valE_iff]
        cases keeps b <;> simp
      rw [this, Finset.mul_sum]
      refine Finset.sum_congr rfl fun b hb => ?_
      rw [Finset.mem_filter] at hb
      rw [hv, dcMap_wf hs ho]
      simp only [hb.2, if_true]
      cases s.valE b with
      | none => simp
      | some J => simp only [Option.map_some, Option.elim_some, Config.bond_smul']; ring
    · intro b hb
      rw [hs.twice ho]
      cases s.valE b with
      | none => rfl
      | some J => exact hφ b J
  · have he : ∀ b, t.valE b = s.valE b := fun b => by rw [hv, dcMap_wf hs ho]
    have : t.exch.keys.toFinset = s.exch.keys.toFinset := by
      ext b; rw [List.mem_toFinset, List.mem_toFinset, ← isSome_valE_iff, ← isSome_valE_iff, he]
    rw [this]
    exact Finset.sum_congr rfl fun b _ => by rw [he]

/-- Switching double counting on leaves the sum over bonds unchanged. -/
theorem setDC_on_bonds {s t : St K} (hs : s.Paired) (ht : t.KeysNodup) (h2 : (2 : K) ≠ 0) (ho : s.dc = some false)
    (hv : ∀ b, t.valE b = ((s.valE b.mirror).map fun m => (1 / 2 : K) • m.transpose).or
      ((s.valE b).map fun m => (1 / 2 : K) • m)) (c : Config K Γ) (w : Atom → K) :
    c.bonds w t.exchangeItems = c.bonds w s.exchangeItems := by
  rw [bonds_eq_sum ht, bonds_eq_sum hs.keys]
  have hφ : ∀ (b : Bond) (J : M3 K), w b.mirror.1 * w b.mirror.2.1 * c.bond b.mirror J.transpose =
      w b.1 * w b.2.1 * c.bond b J := fun b J => by
    rw [Config.bond_mirror]; simp only [Bond.mirror]; ring
  have hinj : Function.Injective Bond.mirror := fun a b h => by
    rw [← Bond.mirror_mirror a, h, Bond.mirror_mirror]
  have hkeys : t.exch.keys.toFinset = s.exch.keys.toFinset ∪ s.exch.keys.toFinset.image Bond.mirror := by
    ext b
    rw [Finset.mem_union, Finset.mem_image, List.mem_toFinset, List.mem_toFinset, ← isSome_valE_iff, hv,
      ← isSome_valE_iff]
    have : (∃ x ∈ s.exch.keys.toFinset, x.mirror = b) ↔ (s.valE b.mirror).isSome := by
      rw [isSome_valE_iff]
      constructor
      · rintro ⟨x, hx, rfl⟩; rw [Bond.mirror_mirror]; exact List.mem_toFinset.1 hx
      · exact fun h => ⟨_, List.mem_toFinset.2 h, b.mirror_mirror⟩
    rw [this]
    cases s.valE b <;> cases s.valE b.mirror <;> simp
  have hdis : Disjoint s.exch.keys.toFinset (s.exch.keys.toFinset.image Bond.mirror) := by
    rw [Finset.disjoint_left]
    intro b hb hb'
    obtain ⟨x, hx, rfl⟩ := Finset.mem_image.1 hb'
    exact hs.single ho x (List.mem_toFinset.1 hx) (List.mem_toFinset.1 hb)
  rw [hkeys, Finset.sum_union hdis, Finset.sum_image fun a _ b _ h => hinj h, ← Finset.sum_add_distrib]
  refine Finset.sum_congr rfl fun b hb => ?_
  rw [List.mem_toFinset] at hb
  rw [hv, hv, Bond.mirror_mirror, valE_eq_none_iff.2 (hs.single ho b hb)]
  cases s.valE b with
  | none => simp
  | some J =>
    simp only [Option.map_none, Option.map_some, Option.none_or, Option.or_none, Option.elim_some, Config.bond_smul']
    have := hφ b J
    rw [mul_left_comm (w b.mirror.1 * w b.mirror.2.1), this]
    field_simp
    ring

end St
end Energy
end Magnopy
