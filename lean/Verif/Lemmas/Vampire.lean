import Verif.Lemmas.EnergyInit
import Verif.Lemmas.HamRenote
import Verif.Props.HamIter
import Verif.Spec.Vampire

/-!
# Helper lemmas: the export to Vampire
-/

set_option autoImplicit false

set_option linter.unusedSectionVars false

namespace Magnopy

open PyDict

variable {K : Type*} [Field K]

namespace Vampire

open EnergyObj

theorem atomLines_ok (materials : List ℤ) (as : List Atom) (n : ℕ) (h : n + as.length ≤ materials.length) :
    atomLines materials n as = .ok ((as.zipIdx n).map fun p => (p.2, p.1, (materials[p.2]?).getD 0)) := by
  induction as generalizing n with
  | nil => rfl
  | cons a as ih =>
    simp only [List.length_cons] at h
    have h1 : materials[n]? = some materials[n] := List.getElem?_eq_getElem (by omega)
    simp [atomLines, h1, ih (n + 1) (by omega)]

theorem atomLines_short (materials : List ℤ) (as : List Atom) (n : ℕ) (hn : n ≤ materials.length)
    (h : materials.length < n + as.length) : atomLines materials n as = .error .indexError := by
  induction as generalizing n with
  | nil => simp at h; omega
  | cons a as ih =>
    simp only [List.length_cons] at h
    by_cases hl : n < materials.length
    · have h1 : materials[n]? = some materials[n] := List.getElem?_eq_getElem hl
      simp [atomLines, h1, ih (n + 1) (by omega) (by omega)]
    · have h1 : materials[n]? = none := List.getElem?_eq_none (by omega)
      simp [atomLines, h1]

/-- The line for an item of `exchange_like`. -/
def lineOf (atoms : List Atom) (mask : Mask K) (energy : K) (s : St K) (q : (Bond × ℕ) × ℕ) : Line K :=
  ⟨q.2, atoms.idxOf q.1.1.1, atoms.idxOf q.1.1.2.1, q.1.1.2.2, Param.mulNum (mask.apply (s.cell q.1.2)) energy⟩

theorem lines_ok {atoms : List Atom} (mask : Mask K) (energy : K) (s : St K) (l : List (Bond × ℕ)) (n : ℕ)
    (h : ∀ p ∈ l, p.1.1 ∈ atoms ∧ p.1.2.1 ∈ atoms) :
    lines (indices atoms) mask energy s n l = .ok ((l.zipIdx n).map (lineOf atoms mask energy s)) := by
  induction l generalizing n with
  | nil => rfl
  | cons p l ih =>
    obtain ⟨b, r⟩ := p
    have hb := h _ List.mem_cons_self
    have h1 : PyDict.get? (indices atoms) b.1 = some (atoms.idxOf b.1) := PyDict.get?_zipIdx atoms b.1 hb.1 0
    have h2 : PyDict.get? (indices atoms) b.2.1 = some (atoms.idxOf b.2.1) := PyDict.get?_zipIdx atoms b.2.1 hb.2 0
    simp [lines, h1, h2, ih (n + 1) (fun q hq => h q (List.mem_cons_of_mem _ hq)), lineOf]

end Vampire

namespace St

theorem isSome_pairE_iff {s : St K} {d n e o} (h : s.getNotation = .ok (d, n, e, o)) (sp : Atom → K) (b : Bond) :
    (s.pairE sp b).isSome ↔ keeps b = true ∧ (b ∈ s.exch.keys ∨ b.mirror ∈ s.exch.keys) := by
  rw [pairE_one h, ← isSome_oneE_iff]
  by_cases hk : keeps b = true
  · rw [if_pos hk, Option.isSome_map]; exact ⟨fun h => ⟨hk, h⟩, fun h => h.2⟩
  · rw [if_neg hk]; exact ⟨fun h => (by cases h), fun h => absurd h.1 hk⟩

theorem Renoted.touch {Γ : Type*} [AddCommGroup Γ] [Fintype Γ] {sp : Atom → K} {s t : St K} (h : Renoted Γ sp s t)
    (hs : s.Paired) (hc : s.Complete) (b : Bond) :
    (b ∈ t.exch.keys ∨ b.mirror ∈ t.exch.keys) ↔ (b ∈ s.exch.keys ∨ b.mirror ∈ s.exch.keys) := by
  have key : ∀ u v : St K, u.Paired → u.Complete → v.Complete → (∀ b, u.pairE sp b = v.pairE sp b) →
      ∀ b, b ∈ u.exch.keys ∨ b.mirror ∈ u.exch.keys → b ∈ v.exch.keys ∨ b.mirror ∈ v.exch.keys := by
    intro u v hu hcu hcv hp b hb
    obtain ⟨d, n, e, o, hn, _, _⟩ := hcu
    obtain ⟨d', n', e', o', hn', _, _⟩ := hcv
    have hp' : ∀ b, (keeps b = true ∧ (b ∈ u.exch.keys ∨ b.mirror ∈ u.exch.keys)) →
        b ∈ v.exch.keys ∨ b.mirror ∈ v.exch.keys := fun b h => by
      rw [← isSome_pairE_iff hn sp, hp, isSome_pairE_iff hn'] at h
      exact h.2
    by_cases hk : keeps b = true
    · exact hp' b ⟨hk, hb⟩
    · have := hp' b.mirror ⟨by rw [hu.keeps_mirror hb]; simpa using hk, by rw [Bond.mirror_mirror]; exact hb.symm⟩
      rw [Bond.mirror_mirror] at this
      exact this.symm
  exact ⟨key t s h.wf.paired h.complete hc h.pairE b, key s t hs hc h.complete (fun b => (h.pairE b).symm) b⟩

theorem Renoted.onSiteKeys {Γ : Type*} [AddCommGroup Γ] [Fintype Γ] {sp : Atom → K} {s t : St K} (h : Renoted Γ sp s t)
    (hc : s.Complete) (a : Atom) : a ∈ t.onSite.keys ↔ a ∈ s.onSite.keys := by
  obtain ⟨d, n, e, o, hn, _, _⟩ := hc
  obtain ⟨d', n', e', o', hn', _, _⟩ := h.complete
  have h1 := congrArg Option.isSome (h.siteE a)
  rw [siteE_eq hn, siteE_eq hn', Option.isSome_map, Option.isSome_map] at h1
  simp only [valO, Option.isSome_map] at h1
  rw [← isSome_get?_iff, ← isSome_get?_iff, h1]

/-- Another notation has the same magnetic atoms. -/
theorem Renoted.magneticAtoms_eq {Γ : Type*} [AddCommGroup Γ] [Fintype Γ] {sp : Atom → K} {s t : St K}
    (h : Renoted Γ sp s t) (hs : s.Paired) (hc : s.Complete) {order : List Atom → List Atom}
    (ho : ∀ l, (order l).Perm l) : t.magneticAtoms order = s.magneticAtoms order := by
  have hmem : ∀ a, a ∈ t.magneticAtoms order ↔ a ∈ s.magneticAtoms order := by
    intro a
    rw [EnergyObj.mem_magneticAtoms ho, EnergyObj.mem_magneticAtoms ho, h.onSiteKeys hc]
    refine or_congr ?_ Iff.rfl
    have key : ∀ u v : St K, (∀ b, (b ∈ u.exch.keys ∨ b.mirror ∈ u.exch.keys) → (b ∈ v.exch.keys ∨ b.mirror ∈ v.exch.keys)) →
        (∃ b ∈ u.exch.keys, a = b.1 ∨ a = b.2.1) → ∃ b ∈ v.exch.keys, a = b.1 ∨ a = b.2.1 := by
      rintro u v huv ⟨b, hb, hab⟩
      rcases huv b (Or.inl hb) with h | h
      · exact ⟨b, h, hab⟩
      · exact ⟨_, h, hab.symm⟩
    exact ⟨key t s fun b => (h.touch hs hc b).1, key s t fun b => (h.touch hs hc b).2⟩
  obtain ⟨_, n1, p1⟩ := C20_magnetic_atoms t order ho
  obtain ⟨_, n2, p2⟩ := C20_magnetic_atoms s order ho
  have hperm : (t.magneticAtoms order).Perm (s.magneticAtoms order) := by
    rw [List.perm_ext_iff_of_nodup n1 n2]; exact hmem
  refine List.Perm.eq_of_pairwise ?_ p1 p2 hperm
  intro a b ha hb hab hba
  have hin : ∀ a ∈ s.magneticAtoms order, a ∈ s.atoms := by
    intro a ha
    rw [EnergyObj.mem_magneticAtoms ho] at ha
    rcases ha with ⟨b, hb, rfl | rfl⟩ | ha
    · exact (hs.refer.exch b hb).1
    · exact (hs.refer.exch b hb).2
    · exact hs.refer.site a ha
  exact hs.index a (hin a ((hmem a).1 ha)) b (hin b hb) (le_antisymm hab hba)

end St

namespace Vampire

open EnergyObj

/-- What is known about `dump_ucf`; `v` is the Hamiltonian during the export. -/
structure DumpSpec (Γ : Type*) [AddCommGroup Γ] [Fintype Γ] [DecidableEq K] (order : List Atom → List Atom) (energy : K) (mask : Mask K)
    (materials : Option (List ℤ)) (sp : Atom → K) (s : St K) (u : Ucf K) (t v : St K) (items : List (Bond × M3 K)) :
    Prop where
  dump : dumpUcf order energy mask materials s = (.ok u, t)
  same : s.WellFormed → SameHam s t
  turned : TurnedHam s t
  back : t.WellFormed
  after : t.magneticAtoms order = s.magneticAtoms order
  spins : t.Spins sp
  renoted : St.Renoted Γ sp s v
  set : s.setNotation (.str "vampire") = .ok v
  vampire : v.getNotation = .ok (true, true, -(1 / 2), -1)
  like : LikeItems v items
  items_eq : items = (v.onSiteItems.map fun p => ((p.1, p.1, (0, 0, 0)), (1 / 2 : K) • p.2)) ++ v.exchangeItems
  atoms : ∀ p ∈ items, p.1.1 ∈ s.magneticAtoms order ∧ p.1.2.1 ∈ s.magneticAtoms order
  atomLines : u.atoms = (s.magneticAtoms order).zipIdx.map fun p => (p.2, p.1,
    ((materialsOf materials (s.magneticAtoms order).length)[p.2]?).getD 0)
  count : u.count = items.length
  nMaterials : u.nMaterials = (materialsOf materials (s.magneticAtoms order).length).dedup.length
  lines : u.lines = items.zipIdx.map fun q => ⟨q.2, (s.magneticAtoms order).idxOf q.1.1.1,
    (s.magneticAtoms order).idxOf q.1.1.2.1, q.1.1.2.2, energy • mask.apply q.1.2⟩

theorem means_restore (q : Bool × Bool × K × K) : (restore q).Means q := by
  obtain ⟨d, n, e, o⟩ := q
  refine ⟨if d then 1 else 0, if n then 1 else 0, ?_, ?_, Or.inr rfl⟩
  · cases d <;> simp
  · cases n <;> simp

theorem dump_spec (Γ : Type*) [AddCommGroup Γ] [Fintype Γ] [DecidableEq K] (h2 : (2 : K) ≠ 0)
    {order : List Atom → List Atom} (hord : ∀ l, (order l).Perm l) (energy : K) (mask : Mask K)
    (materials : Option (List ℤ)) {sp : Atom → K} {s : St K} (hs : s.Paired) (hsp : s.Spins sp) (hc : s.Complete)
    (hm : ∀ m, materials = some m → (s.magneticAtoms order).length ≤ m.length) :
    ∃ u t v items, DumpSpec Γ order energy mask materials sp s u t v items := by
  obtain ⟨d, n, e, o, hn, he, ho⟩ := hc
  have hc : s.Complete := ⟨d, n, e, o, hn, he, ho⟩
  have hhalf : (-(1 / 2) : K) ≠ 0 := by simpa using h2
  obtain ⟨v, hv, hren, hvn⟩ := St.setFour_on_renoted (Γ := Γ) hs hsp h2 hc true (e := -(1 / 2)) (o := -1) hhalf (by simp)
  have hset : s.setNotation (.str "vampire") = .ok v := by
    rcases St.setNotation_means s (.str "vampire") with ⟨d', n', e', o', hmn, heq, _⟩ | ⟨hmn, _⟩
    · have hmn' : (d', n', e', o') = (true, true, -(1 / 2), -1) := by
        rcases hmn with h | h | h | h
        · exact absurd h.1 (by decide +kernel)
        · exact absurd h.1 (by decide +kernel)
        · exact absurd h.1 (by decide +kernel)
        · exact h.2
      simp only [Prod.mk.injEq] at hmn'
      obtain ⟨rfl, rfl, rfl, rfl⟩ := hmn'
      rw [heq, hv]
    · exact absurd (Or.inr (Or.inr (Or.inr ⟨by decide +kernel, rfl⟩))) (hmn (true, true, -(1 / 2), -1))
  have hmag := hren.magneticAtoms_eq hs hc hord
  obtain ⟨g1, g2, g3, g4⟩ := St.getNotation_ok_iff.1 hvn
  have hwf := hren.wf
  have hinit : LikeIter.init v = .ok ⟨v.onSite.length, v.onSite, v.onSite.keys, 0, v.exch.length, v.exch,
      v.exch.keys, 0, -(1 / 2) / -1⟩ := by
    simp [LikeIter.init, g3, g4, St.ratio]
  obtain ⟨it', hvis⟩ := LikeIter.visits_aux1 v (-(1 / 2) / -1) v.onSite.length v.onSite v.exch v.exch.length v.onSite
    (fun p hp => get?_of_mem hwf.keys.site (k := p.1) (v := p.2) hp) v.exch
    (fun p hp => get?_of_mem hwf.keys.exch (k := p.1) (v := p.2) hp) (fun h => List.length_pos_of_ne_nil h) 0 (by simp)
  set v2 := LikeIter.heap (-(1 / 2) / -1) v.onSite v with hv2
  have hf2 := LikeIter.heap_frame (-(1 / 2) / -1) v.onSite v
  rw [← hv2] at hf2
  have hwf2 : v2.WellFormed := hwf.grow hf2.1 (by rw [hf2.2.1]; omega) hf2.2.2
  have hcol : collectIter LikeIter.next (likeFuel v) ((⟨v.onSite.length, v.onSite, v.onSite.keys, 0, v.exch.length,
      v.exch, v.exch.keys, 0, -(1 / 2) / -1⟩ : LikeIter K), v) = .ok (EnergyObj.items v, (it', v2)) :=
    collectIter_of_visits hvis (n := likeFuel v) (by
    rw [List.length_append, LikeIter.siteItems_length]; simp [likeFuel])
  have hat : ∀ p ∈ EnergyObj.items v, p.1.1 ∈ s.magneticAtoms order ∧ p.1.2.1 ∈ s.magneticAtoms order := by
    intro p hp
    rw [← hmag, mem_magneticAtoms hord, mem_magneticAtoms hord]
    rcases List.mem_append.1 hp with hp | hp
    · obtain ⟨h1, q, h3, h4⟩ := siteItems_fst _ _ p hp
      have : p.1.1 ∈ v.onSite.keys := by rw [h4]; exact List.mem_map.2 ⟨q, h3, rfl⟩
      exact ⟨Or.inr this, Or.inr (h1 ▸ this)⟩
    · have hb : p.1 ∈ v.exch.keys := List.mem_map.2 ⟨p, hp, rfl⟩
      exact ⟨Or.inl ⟨_, hb, Or.inl rfl⟩, Or.inl ⟨_, hb, Or.inr rfl⟩⟩
  have hlen : (EnergyObj.items v).length = v.onSite.length + v.exch.length := by
    rw [EnergyObj.items, List.length_append, LikeIter.siteItems_length]
  -- back to the notation of the start
  have hsp2 : v2.Spins sp := by
    have := hren.spins
    unfold St.Spins at *
    rw [(congrArg Ham.atoms hf2.1 :), (congrArg Ham.spin hf2.1 :)]
    exact this
  have hn2 : v2.getNotation = .ok (true, true, -(1 / 2), -1) := by
    rw [St.getNotation_ok_iff, (congrArg Ham.dc hf2.1 :), (congrArg Ham.sn hf2.1 :), (congrArg Ham.ef hf2.1 :),
      (congrArg Ham.osf hf2.1 :)]
    exact ⟨g1, g2, g3, g4⟩
  have hc2 : v2.Complete := ⟨_, _, _, _, hn2, hhalf, by simp⟩
  obtain ⟨t, ht, hrent, htn⟩ := St.setFour_renoted (Γ := Γ) hwf2 hsp2 h2 hc2 d n he ho
  have hback : v2.setNotation (restore (d, n, e, o)) = .ok t := by
    rcases St.setNotation_means v2 (restore (d, n, e, o)) with ⟨d', n', e', o', hmn, heq, hu⟩ | ⟨hmn, _⟩
    · have := hu _ (means_restore (d, n, e, o))
      simp only [Prod.mk.injEq] at this
      obtain ⟨rfl, rfl, rfl, rfl⟩ := this
      rw [heq, ht]
    · exact absurd (means_restore _) (hmn _)
  have hp2 : ∀ b, v2.pairE sp b = v.pairE sp b := fun b => by
    rw [St.pairE_eq hwf2 hn2, St.pairE_eq hwf hvn, St.valE_congr hf2.1 hwf.alloc hf2.2.2]
  have hq2 : ∀ a, v2.siteE sp a = v.siteE sp a := fun a => by
    rw [St.siteE_eq hn2, St.siteE_eq hvn, St.valO_congr hf2.1 hwf.alloc hf2.2.2]
  have hatoms : t.atoms = s.atoms := by
    rw [hrent.atoms, (congrArg Ham.atoms hf2.1 :), hren.atoms]
  have hafter : t.magneticAtoms order = s.magneticAtoms order := by
    rw [hrent.magneticAtoms_eq hwf2.paired hc2 hord, ← hmag]
    unfold St.magneticAtoms
    rw [(congrArg Ham.exch hf2.1 :), (congrArg Ham.onSite hf2.1 :)]
  have hpair : ∀ b, t.pairE sp b = s.pairE sp b := fun b => by rw [hrent.pairE, hp2, hren.pairE]
  have hsite : ∀ a, t.siteE sp a = s.siteE sp a := fun a => by rw [hrent.siteE, hq2, hren.siteE]
  have hvals := St.values_of_pairE_paired hs hrent.wf hsp hatoms h2 hn htn he ho hpair hsite
  have hdc := (St.getNotation_ok_iff.1 hn).1
  have hturned : TurnedHam s t := by
    refine ⟨hatoms, htn.trans hn.symm, fun h b => ?_, fun h => ?_, fun h b hb => ?_, hvals.2⟩
    · rw [hdc, Option.some.injEq] at h
      rw [hvals.1, if_pos h]
    · refine hrent.wf.once ?_
      rw [(St.getNotation_ok_iff.1 htn).1, ← h, hdc]
    · have h' : d = false := by rw [hdc, Option.some.injEq] at h; exact h
      have ht := hvals.1 b
      rw [if_neg (by rw [h']; exact Bool.false_ne_true), if_pos ((keeps_iff b).2 hb)] at ht
      refine ⟨fun hm => ?_, fun hm => ?_, fun hm hm' => ?_⟩
      · rw [ht, St.oneE]
        obtain ⟨m, hm⟩ := Option.isSome_iff_exists.1 (St.isSome_valE_iff.2 hm)
        rw [hm, Option.some_or]
      · rw [ht, St.oneE]
        have := hs.single h _ hm
        rw [Bond.mirror_mirror] at this
        rw [St.valE_eq_none_iff.2 this, Option.none_or]
      · rw [ht, St.oneE, St.valE_eq_none_iff.2 hm, St.valE_eq_none_iff.2 hm', Option.map_none, Option.none_or]
  have hcells : (EnergyObj.items v).map (fun p => (p.1, v2.cell p.2)) =
      (v.onSiteItems.map fun p => ((p.1, p.1, (0, 0, 0)), (1 / 2 : K) • p.2)) ++ v.exchangeItems := by
    rw [EnergyObj.items, List.map_append]
    congr 1
    · have := LikeIter.siteItems_cells (-(1 / 2) / -1 : K) v.onSite v
        (fun p hp => hwf.alloc.site p.1 p.2 (get?_of_mem hwf.keys.site hp))
      rw [hv2, this]
      unfold St.onSiteItems
      rw [List.map_map]
      apply List.map_congr_left
      intro p _
      simp only [Function.comp, Prod.mk.injEq, true_and]
      ext i j
      simp [Param.mulNum, mul_comm]
    · unfold St.exchangeItems
      apply List.map_congr_left
      intro p hp
      rw [hf2.2.2 _ (hwf.alloc.exch p.1 p.2 (get?_of_mem hwf.keys.exch hp))]
  have hmat : (s.magneticAtoms order).length ≤ (materialsOf materials (s.magneticAtoms order).length).length := by
    unfold materialsOf
    cases materials with
    | none => simp
    | some m => exact hm m rfl
  refine ⟨⟨(materialsOf materials (s.magneticAtoms order).length).dedup.length, (s.magneticAtoms order).zipIdx.map fun p => (p.2, p.1,
      ((materialsOf materials (s.magneticAtoms order).length)[p.2]?).getD 0), v.onSite.length + v.exch.length,
      ((EnergyObj.items v).map fun p => (p.1, v2.cell p.2)).zipIdx.map fun q => ⟨q.2, (s.magneticAtoms order).idxOf q.1.1.1,
        (s.magneticAtoms order).idxOf q.1.1.2.1, q.1.1.2.2, energy • mask.apply q.1.2⟩⟩,
    t, v, (EnergyObj.items v).map fun p => (p.1, v2.cell p.2),
    { dump := ?_, same := fun hw => ⟨hatoms, htn.trans hn.symm,
        (St.values_of_pairE hw hrent.wf hsp hatoms h2 hn htn he ho hpair hsite).1, hvals.2⟩, turned := hturned,
      back := hrent.wf, after := hafter, spins := hrent.spins, renoted := hren, set := hset, vampire := hvn,
      like := ⟨_, _, _, _, hinit, hvis, rfl⟩, items_eq := hcells, atoms := ?_, atomLines := rfl, count := ?_,
      nMaterials := rfl, lines := rfl }⟩
  · unfold dumpUcf
    simp only [hn, hset, Res.st_ok, Res.err_ok, hmag, atomLines_ok _ _ 0 (by simpa using hmat), hinit, hcol]
    rw [lines_ok mask energy v2 _ 0 hat]
    simp only [hback, Res.st_ok, Res.err_ok, Prod.mk.injEq, Except.ok.injEq, and_true]
    refine congrArg (Ucf.mk _ _ _) ?_
    rw [List.zipIdx_map, List.map_map]
    apply List.map_congr_left
    rintro ⟨⟨b, r⟩, k⟩ _
    simp only [lineOf, Function.comp, Prod.map, id, Line.mk.injEq, true_and]
    ext i j
    simp [Param.mulNum, mul_comm]
  · intro p hp
    obtain ⟨q, hq, rfl⟩ := List.mem_map.1 hp
    exact hat q hq
  · rw [List.length_map, hlen]

end Vampire
end Magnopy
