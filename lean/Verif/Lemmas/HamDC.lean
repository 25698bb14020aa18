import Verif.Lemmas.Ham

/-!
# Helper lemmas: `_ensure_double_counting` and `_ensure_no_double_counting`
-/

set_option autoImplicit false

set_option linter.unusedSectionVars false

namespace Magnopy

open PyDict

/-- Several assignments `d[k] = v` one after another. -/
def PyDict.setAll {α β : Type*} [DecidableEq α] (d : PyDict α β) (l : List (α × β)) : PyDict α β :=
  l.foldl (fun d p => d.set p.1 p.2) d

theorem PyDict.get?_setAll {α β : Type*} [DecidableEq α] (d l : PyDict α β) (hl : l.keys.Nodup) (k : α) :
    (d.setAll l).get? k = (l.get? k).or (d.get? k) := by
  induction l generalizing d with
  | nil => simp [setAll, get?]
  | cons p l ih =>
    obtain ⟨a, v⟩ := p
    rw [keys_cons, List.nodup_cons] at hl
    change PyDict.get? (PyDict.setAll (d.set a v) l) k = _
    rw [ih _ hl.2, get?_set]
    by_cases h : a = k
    · subst h
      have : get? l a = none := get?_eq_none_iff.2 hl.1
      simp [get?, this]
    · simp [get?, h]

theorem PyDict.nodup_setAll {α β : Type*} [DecidableEq α] (d l : PyDict α β) (hd : d.keys.Nodup) :
    (d.setAll l).keys.Nodup := by
  induction l generalizing d with
  | nil => exact hd
  | cons p l ih => exact ih _ (nodup_set hd _ _)

/-- Several deletions one after another. -/
def PyDict.delAll {α β : Type*} [DecidableEq α] (d : PyDict α β) (l : List α) : PyDict α β :=
  l.foldl (fun d k => d.del k) d

theorem PyDict.nodup_delAll {α β : Type*} [DecidableEq α] (d : PyDict α β) (l : List α) (hd : d.keys.Nodup) :
    (d.delAll l).keys.Nodup := by
  induction l generalizing d with
  | nil => exact hd
  | cons p l ih => exact ih _ (nodup_del hd _)

theorem PyDict.get?_delAll {α β : Type*} [DecidableEq α] (d : PyDict α β) (hd : d.keys.Nodup) (l : List α)
    (k : α) : (d.delAll l).get? k = if k ∈ l then none else d.get? k := by
  induction l generalizing d with
  | nil => simp [delAll]
  | cons a l ih =>
    change PyDict.get? (PyDict.delAll (d.del a) l) k = _
    rw [ih _ (nodup_del hd a), get?_del hd]
    by_cases h : a = k
    · subst h; simp
    · have : k ≠ a := fun e => h e.symm
      simp [h, this]

namespace St

variable {K : Type*} [Field K]

theorem Refer.congr {s t : St K} (h : t.toHam = s.toHam) (hs : s.Refer) : t.Refer := by
  have e1 : t.exch = s.exch := congrArg Ham.exch h
  have e2 : t.onSite = s.onSite := congrArg Ham.onSite h
  have e3 : t.atoms = s.atoms := congrArg Ham.atoms h
  exact ⟨by rw [e1, e3]; exact hs.exch, by rw [e2, e3]; exact hs.site⟩

theorem collectMirrors_spec (d : PyDict Bond ℕ) (s : St K) :
    (collectMirrors d s).1.toHam = s.toHam ∧
    (collectMirrors d s).1.next = s.next + d.length ∧
    (collectMirrors d s).2.map Prod.fst = d.keys.map Bond.mirror ∧
    (collectMirrors d s).2.map Prod.snd = List.range' s.next d.length ∧
    (∀ r < s.next, (collectMirrors d s).1.cell r = s.cell r) := by
  induction d generalizing s with
  | nil => simp [collectMirrors]
  | cons p d ih =>
    obtain ⟨b, r⟩ := p
    obtain ⟨h1, h2, h3, h4, h5⟩ := ih (s.alloc (Param.T (s.cell r))).1
    simp only [collectMirrors]
    refine ⟨h1.trans rfl, ?_, ?_, ?_, ?_⟩
    · rw [h2]; simp [alloc]; omega
    · simp only [List.map_cons, h3, keys_cons]
    · simp only [List.map_cons, h4]
      simp [alloc, List.range'_succ]
    · intro q hq
      rw [h5 q (by simp [alloc]; omega)]
      have : q ≠ s.next := by omega
      simp [alloc, this]

theorem collectMirrors_val (d : PyDict Bond ℕ) (s : St K) (hd : ∀ p ∈ d, p.2 < s.next)
    {b : Bond} {r : ℕ} (hn : d.keys.Nodup) (h : d.get? b = some r) :
    ∃ r', PyDict.get? (collectMirrors d s).2 b.mirror = some r' ∧ s.next ≤ r' ∧
      (collectMirrors d s).1.cell r' = Param.T (s.cell r) := by
  induction d generalizing s with
  | nil => simp [get?] at h
  | cons p d ih =>
    obtain ⟨b', q⟩ := p
    rw [keys_cons, List.nodup_cons] at hn
    have hsp := collectMirrors_spec d (s.alloc (Param.T (s.cell q))).1
    simp only [collectMirrors]
    by_cases hb : b' = b
    · subst hb
      have hq : q = r := by simpa [get?] using h
      subst hq
      refine ⟨s.next, by simp [get?, alloc], le_refl _, ?_⟩
      rw [hsp.2.2.2.2 s.next (by simp [alloc])]
      simp [alloc]
    · have h' : get? d b = some r := by simpa [get?, hb] using h
      have hr : r < s.next := hd _ (List.mem_cons_of_mem _ (mem_of_get? h'))
      obtain ⟨r', e1, e2, e3⟩ := ih (s.alloc (Param.T (s.cell q))).1
        (fun p hp => by have := hd p (List.mem_cons_of_mem _ hp); simp [alloc]; omega) hn.2 h'
      refine ⟨r', ?_, ?_, ?_⟩
      · have : b'.mirror ≠ b.mirror := fun e => hb (Bond.mirror_injective e)
        simp [get?, this, e1]
      · simp [alloc] at e2; omega
      · rw [e3]
        have : r ≠ s.next := by omega
        simp [alloc, this]

/-- `add_exchange` with atoms of the crystal and an existing object. -/
theorem addExchange_atoms {s : St K} {b : Bond} (h1 : b.1 ∈ s.atoms) (h2 : b.2.1 ∈ s.atoms) (r : ℕ) :
    s.addExchange (.atom b.1) (.atom b.2.1) b.2.2 (.obj r) = .ok (s.putBond b r) := by
  simp [addExchange, findOrAdd, h1, h2, resolve]

/-- The state after `_ensure_double_counting`. -/
def ensuredDC (s : St K) : St K :=
  { (collectMirrors s.exch s).1 with exch := s.exch.setAll (collectMirrors s.exch s).2 }

theorem ensureDC_eq {s : St K} (hr : s.Refer) : ensureDC s = .ok s.ensuredDC := by
  obtain ⟨h1, h2, h3, h4, h5⟩ := collectMirrors_spec s.exch s
  unfold ensureDC ensuredDC
  generalize hcm : collectMirrors s.exch s = cm at *
  obtain ⟨s1, l⟩ := cm
  simp only at *
  have hl : ∀ p ∈ l, p.1.mirror ∈ s.exch.keys := by
    intro p hp
    have : p.1 ∈ l.map Prod.fst := List.mem_map.2 ⟨p, hp, rfl⟩
    rw [h3, List.mem_map] at this
    obtain ⟨b, hb, e⟩ := this
    rw [← e, Bond.mirror_mirror]; exact hb
  have key := forEach_eq_foldl (body := fun (p : Bond × ℕ) (t : St K) =>
      t.addExchange (.atom p.1.1) (.atom p.1.2.1) p.1.2.2 (.obj p.2))
    (f := fun t p => { t with exch := t.exch.set p.1 p.2 })
    (P := fun t : St K => t.atoms = s.atoms ∧ ∀ b ∈ s.exch.keys, b ∈ t.exch.keys) l
    (fun p hp t ht => by
      have hm := hl p hp
      have ha := hr.exch _ hm
      simp only [Bond.mirror] at ha
      refine ⟨?_, ht.1, fun b hb => mem_keys_set.2 (Or.inr (ht.2 b hb))⟩
      rw [addExchange_atoms (by rw [ht.1]; exact ha.2) (by rw [ht.1]; exact ha.1)]
      unfold putBond
      have : (t.exch.set p.1 p.2).get? p.1.mirror ≠ none := by
        rw [Ne, get?_eq_none_iff, not_not]
        exact mem_keys_set.2 (Or.inr (ht.2 _ hm))
      simp [this]) s1
    ⟨congrArg Ham.atoms h1, fun b hb => by rw [show s1.exch = s.exch from congrArg Ham.exch h1]; exact hb⟩
  rw [key.1]
  congr 1
  have hex : s1.exch = s.exch := congrArg Ham.exch h1
  clear key hl h3 h4 hcm
  rw [← hex]
  clear h1 h2 h5 hex
  induction l generalizing s1 with
  | nil => rfl
  | cons p l ih => exact ih { s1 with exch := s1.exch.set p.1 p.2 }

theorem ensuredDC_frame (s : St K) : s.ensuredDC.onSite = s.onSite ∧ s.ensuredDC.atoms = s.atoms ∧
    s.ensuredDC.dc = s.dc ∧ s.ensuredDC.sn = s.sn ∧ s.ensuredDC.ef = s.ef ∧ s.ensuredDC.osf = s.osf ∧
    s.ensuredDC.spin = s.spin ∧ s.ensuredDC.dist = s.dist := by
  have h := (collectMirrors_spec s.exch s).1
  unfold ensuredDC
  generalize collectMirrors s.exch s = cm at *
  obtain ⟨c, l⟩ := cm
  simp only at h ⊢
  rw [h]
  simp

theorem mirrors_nodup {s : St K} (hk : s.exch.keys.Nodup) :
    (PyDict.keys (collectMirrors s.exch s).2).Nodup := by
  rw [keys, (collectMirrors_spec s.exch s).2.2.1]
  exact hk.map Bond.mirror_injective

theorem ensuredDC_get? {s : St K} (hk : s.KeysNodup) (b : Bond) :
    s.ensuredDC.exch.get? b = (PyDict.get? (collectMirrors s.exch s).2 b).or (s.exch.get? b) :=
  get?_setAll _ _ (mirrors_nodup hk.exch) b

theorem ensuredDC_keys {s : St K} (hk : s.KeysNodup) (b : Bond) :
    b ∈ s.ensuredDC.exch.keys ↔ b ∈ s.exch.keys ∨ b.mirror ∈ s.exch.keys := by
  rw [← isSome_get?_iff, ensuredDC_get? hk, Option.isSome_or, Bool.or_eq_true, isSome_get?_iff,
    isSome_get?_iff, keys, (collectMirrors_spec s.exch s).2.2.1, List.mem_map, or_comm]
  constructor
  · rintro (h | ⟨c, hc, e⟩)
    · exact Or.inl h
    · right; rw [← e, Bond.mirror_mirror]; exact hc
  · rintro (h | h)
    · exact Or.inl h
    · exact Or.inr ⟨b.mirror, h, Bond.mirror_mirror b⟩

theorem Alloc.mem {s : St K} (hk : s.KeysNodup) (ha : s.Alloc) : ∀ p ∈ s.exch, p.2 < s.next :=
  fun p hp => ha.exch p.1 p.2 (get?_of_mem hk.exch hp)

/-- Observable effect of `_ensure_double_counting`: every bond whose mirror is stored now holds the
transposed value of that mirror. -/
theorem ensuredDC_valE {s : St K} (hk : s.KeysNodup) (ha : s.Alloc) (b : Bond) :
    s.ensuredDC.valE b = ((s.valE b.mirror).map Param.T).or (s.valE b) := by
  have hsp := collectMirrors_spec s.exch s
  unfold valE
  rw [ensuredDC_get? hk]
  cases h : s.exch.get? b.mirror with
  | some r =>
    obtain ⟨r', e1, _, e3⟩ := collectMirrors_val s.exch s (ha.mem hk) hk.exch h
    rw [Bond.mirror_mirror] at e1
    simp [e1, ensuredDC, e3]
  | none =>
    have : PyDict.get? (collectMirrors s.exch s).2 b = none := by
      rw [get?_eq_none_iff, keys, hsp.2.2.1, List.mem_map]
      rintro ⟨c, hc, e⟩
      rw [get?_eq_none_iff, ← e, Bond.mirror_mirror] at h
      exact h hc
    rw [this]
    simp only [Option.none_or, Option.map_none]
    cases hb : s.exch.get? b with
    | none => simp
    | some r => simp [ensuredDC, hsp.2.2.2.2 r (ha.exch b r hb)]

theorem ensuredDC_valO {s : St K} (ha : s.Alloc) (a : Atom) : s.ensuredDC.valO a = s.valO a := by
  have hsp := collectMirrors_spec s.exch s
  unfold valO
  rw [(ensuredDC_frame s).1]
  cases h : s.onSite.get? a with
  | none => simp
  | some r => simp [ensuredDC, hsp.2.2.2.2 r (ha.site a r h)]

theorem ensuredDC_keysNodup {s : St K} (hk : s.KeysNodup) : s.ensuredDC.KeysNodup :=
  ⟨nodup_setAll _ _ hk.exch, by rw [(ensuredDC_frame s).1]; exact hk.site⟩

theorem ensuredDC_refer {s : St K} (hk : s.KeysNodup) (hr : s.Refer) : s.ensuredDC.Refer := by
  have hf := ensuredDC_frame s
  refine ⟨fun b hb => ?_, ?_⟩
  · rw [ensuredDC_keys hk] at hb
    rw [hf.2.1]
    rcases hb with hb | hb
    · exact hr.exch b hb
    · exact (hr.exch _ hb).symm
  · rw [hf.1, hf.2.1]; exact hr.site

theorem ensuredDC_ref_cases {s : St K} (hk : s.KeysNodup) {b : Bond} {r : ℕ}
    (h : s.ensuredDC.exch.get? b = some r) :
    (s.next ≤ r ∧ PyDict.get? (collectMirrors s.exch s).2 b = some r ∧ r < s.ensuredDC.next) ∨
      (s.exch.get? b = some r ∧ b.mirror ∉ s.exch.keys) := by
  have hsp := collectMirrors_spec s.exch s
  rw [ensuredDC_get? hk] at h
  cases hm : PyDict.get? (collectMirrors s.exch s).2 b with
  | some q =>
    rw [hm] at h
    simp at h
    subst h
    have : q ∈ (collectMirrors s.exch s).2.map Prod.snd :=
      List.mem_map.2 ⟨_, mem_of_get? hm, rfl⟩
    rw [hsp.2.2.2.1, List.mem_range'] at this
    obtain ⟨i, hi, e⟩ := this
    refine Or.inl ⟨by omega, rfl, ?_⟩
    have : s.ensuredDC.next = s.next + s.exch.length := hsp.2.1
    omega
  | none =>
    rw [hm] at h
    refine Or.inr ⟨by simpa using h, ?_⟩
    rw [get?_eq_none_iff, keys, hsp.2.2.1, List.mem_map] at hm
    exact fun hb => hm ⟨_, hb, Bond.mirror_mirror b⟩

theorem ensuredDC_next (s : St K) : s.ensuredDC.next = s.next + s.exch.length :=
  (collectMirrors_spec s.exch s).2.1

theorem ensuredDC_alloc {s : St K} (hk : s.KeysNodup) (ha : s.Alloc) : s.ensuredDC.Alloc := by
  have hnx := ensuredDC_next s
  refine ⟨fun b r h => ?_, fun a r h => ?_⟩
  · rcases ensuredDC_ref_cases hk h with h | h
    · exact h.2.2
    · have := ha.exch b r h.1; omega
  · rw [(ensuredDC_frame s).1] at h
    have := ha.site a r h; omega

theorem get?_inj_of_values_nodup {α β : Type*} [DecidableEq α] {d : PyDict α β}
    (hv : (d.map Prod.snd).Nodup) {a b : α} {v : β} (h1 : d.get? a = some v) (h2 : d.get? b = some v) :
    a = b := by
  induction d with
  | nil => simp [get?] at h1
  | cons p d ih =>
    obtain ⟨k, w⟩ := p
    rw [List.map_cons, List.nodup_cons] at hv
    by_cases ha : k = a
    · by_cases hb : k = b
      · exact ha.symm.trans hb
      · simp [get?, ha] at h1
        simp [get?, hb] at h2
        exact absurd (List.mem_map.2 ⟨_, mem_of_get? h2, h1.symm⟩) hv.1
    · by_cases hb : k = b
      · simp [get?, ha] at h1
        simp [get?, hb] at h2
        exact absurd (List.mem_map.2 ⟨_, mem_of_get? h1, h2.symm⟩) hv.1
      · simp [get?, ha] at h1
        simp [get?, hb] at h2
        exact ih hv.2 h1 h2

theorem ensuredDC_noShare {s : St K} (hk : s.KeysNodup) (ha : s.Alloc) (hs : s.NoShare) :
    s.ensuredDC.NoShare := by
  have hsp := collectMirrors_spec s.exch s
  have hv : ((collectMirrors s.exch s).2.map Prod.snd).Nodup := by
    rw [hsp.2.2.2.1]; exact List.nodup_range'
  refine ⟨fun b b' r h h' => ?_, ?_, fun b a r h h' => ?_⟩
  · rcases ensuredDC_ref_cases hk h with h | h <;> rcases ensuredDC_ref_cases hk h' with h' | h'
    · exact get?_inj_of_values_nodup hv h.2.1 h'.2.1
    · have := ha.exch _ _ h'.1; omega
    · have := ha.exch _ _ h.1; omega
    · exact hs.exch b b' r h.1 h'.1
  · rw [(ensuredDC_frame s).1]; exact hs.site
  · rw [(ensuredDC_frame s).1] at h'
    rcases ensuredDC_ref_cases hk h with h | h
    · have := ha.site _ _ h'; omega
    · exact hs.cross b a r h.1 h'

/-! ### No double counting -/

theorem collectRemovals_ok_iff (s : St K) (l : List Bond) :
    (∃ rem, s.collectRemovals l = .ok rem) ↔
      ∀ b ∈ l, keeps b = false → b.mirror ∈ s.exch.keys := by
  induction l with
  | nil => simp [collectRemovals]
  | cons b l ih =>
    rw [List.forall_mem_cons, ← ih]
    simp only [collectRemovals]
    by_cases hk : keeps b = true
    · simp only [hk, if_true]
      cases h : s.collectRemovals l with
      | error e => simp
      | ok rem => simp
    · have hk' : keeps b = false := by simpa using hk
      simp only [hk]
      by_cases hm : s.exch.get? b.mirror = none
      · simp only [hm, if_true]
        rw [get?_eq_none_iff] at hm
        constructor
        · rintro ⟨_, h⟩; cases h
        · rintro ⟨h, _⟩; exact absurd (h trivial) hm
      · simp only [hm, if_false]
        have hm' : b.mirror ∈ s.exch.keys := by
          rw [get?_eq_none_iff, not_not] at hm; exact hm
        cases h : s.collectRemovals l with
        | error e => simp
        | ok rem => simp [hm']

theorem collectRemovals_error (s : St K) (l : List Bond) (e : PyErr)
    (h : s.collectRemovals l = .error e) : e = .typeError := by
  induction l with
  | nil => simp [collectRemovals] at h
  | cons b l ih =>
    simp only [collectRemovals] at h
    cases h' : s.collectRemovals l with
    | error e' =>
      have := fun x => ih (h'.trans x)
      simp only [h'] at h
      split_ifs at h
      · cases h; exact this rfl
      · cases h; rfl
      · cases h; exact this rfl
    | ok rem =>
      simp only [h'] at h
      split_ifs at h
      · cases h; rfl

theorem mem_collectRemovals (s : St K) (l rem : List Bond) (h : s.collectRemovals l = .ok rem) (c : Bond) :
    c ∈ rem ↔ (c ∈ l ∧ keeps c = false) ∨ (c ∈ s.exch.keys ∧ c.mirror ∈ l ∧ keeps c.mirror = true) := by
  induction l generalizing rem with
  | nil =>
    simp [collectRemovals] at h
    subst h; simp
  | cons b l ih =>
    simp only [collectRemovals] at h
    cases h' : s.collectRemovals l with
    | error e' =>
      simp only [h'] at h
      split_ifs at h
    | ok r =>
      have ih := ih r h'
      simp only [h'] at h
      by_cases hk : keeps b = true
      · simp only [hk, if_true] at h
        by_cases hm : s.exch.get? b.mirror = none
        · simp [hm] at h
          subst h
          rw [ih]
          rw [get?_eq_none_iff] at hm
          simp only [List.mem_cons]
          constructor
          · rintro (⟨h1, h2⟩ | ⟨h1, h2, h3⟩)
            · exact Or.inl ⟨Or.inr h1, h2⟩
            · exact Or.inr ⟨h1, Or.inr h2, h3⟩
          · rintro (⟨h1 | h1, h2⟩ | ⟨h1, h2 | h2, h3⟩)
            · subst h1; rw [hk] at h2; cases h2
            · exact Or.inl ⟨h1, h2⟩
            · rw [← h2, Bond.mirror_mirror] at hm; exact absurd h1 hm
            · exact Or.inr ⟨h1, h2, h3⟩
        · simp [hm] at h
          subst h
          rw [get?_eq_none_iff, not_not] at hm
          rw [List.mem_cons, ih]
          simp only [List.mem_cons]
          constructor
          · rintro (rfl | ⟨h1, h2⟩ | ⟨h1, h2, h3⟩)
            · exact Or.inr ⟨hm, Or.inl (Bond.mirror_mirror b), by rw [Bond.mirror_mirror]; exact hk⟩
            · exact Or.inl ⟨Or.inr h1, h2⟩
            · exact Or.inr ⟨h1, Or.inr h2, h3⟩
          · rintro (⟨h1 | h1, h2⟩ | ⟨h1, h2 | h2, h3⟩)
            · subst h1; rw [hk] at h2; cases h2
            · exact Or.inr (Or.inl ⟨h1, h2⟩)
            · left; rw [← h2, Bond.mirror_mirror]
            · exact Or.inr (Or.inr ⟨h1, h2, h3⟩)
      · have hk' : keeps b = false := by simpa using hk
        simp only [hk'] at h
        by_cases hm : s.exch.get? b.mirror = none
        · simp [hm] at h
        · simp [hm] at h
          subst h
          rw [List.mem_cons, ih]
          simp only [List.mem_cons]
          constructor
          · rintro (rfl | ⟨h1, h2⟩ | ⟨h1, h2, h3⟩)
            · exact Or.inl ⟨Or.inl rfl, hk'⟩
            · exact Or.inl ⟨Or.inr h1, h2⟩
            · exact Or.inr ⟨h1, Or.inr h2, h3⟩
          · rintro (⟨h1 | h1, h2⟩ | ⟨h1, h2 | h2, h3⟩)
            · exact Or.inl h1
            · exact Or.inr (Or.inl ⟨h1, h2⟩)
            · rw [h2] at h3; rw [h3] at hk'; cases hk'
            · exact Or.inr (Or.inr ⟨h1, h2, h3⟩)

/-- The state after a successful `_ensure_no_double_counting` with removal list `rem`. -/
def ensuredNoDC (s : St K) (rem : List Bond) : St K := { s with exch := s.exch.delAll rem }

theorem ensureNoDC_eq {s : St K} (hdc : s.dc ≠ some true) {rem : List Bond}
    (h : s.collectRemovals s.exch.keys = .ok rem) : ensureNoDC s = .ok (s.ensuredNoDC rem) := by
  unfold ensureNoDC
  rw [h]
  have key := forEach_eq_foldl (body := fun (b : Bond) (t : St K) =>
      t.removeExchange (.atom b.1) (.atom b.2.1) b.2.2 false)
    (f := fun t b => { t with exch := t.exch.del b })
    (P := fun t : St K => t.dc = s.dc) rem
    (fun b _ t ht => by
      have : t.dc ≠ some true := by rw [ht]; exact hdc
      exact ⟨by simp [removeExchange, find, dropBond, this], ht⟩) s rfl
  simp only
  rw [key.1]
  congr 1
  clear key h
  unfold ensuredNoDC
  induction rem generalizing s with
  | nil => rfl
  | cons b rem ih => exact ih (s := { s with exch := s.exch.del b }) hdc

theorem ensuredNoDC_valE {s : St K} (hk : s.KeysNodup) {rem : List Bond}
    (h : s.collectRemovals s.exch.keys = .ok rem) (b : Bond) :
    (s.ensuredNoDC rem).valE b =
      if keeps b = false ∨ (b.mirror ∈ s.exch.keys ∧ keeps b.mirror = true) then none else s.valE b := by
  unfold valE
  have : (s.ensuredNoDC rem).exch.get? b = if b ∈ rem then none else s.exch.get? b := by
    refine (get?_delAll _ hk.exch rem b).trans ?_
    by_cases hb : b ∈ rem <;> simp [hb]
  rw [this]
  have hm := mem_collectRemovals s _ _ h b
  by_cases hb : b ∈ s.exch.keys
  · by_cases hc : keeps b = false ∨ (b.mirror ∈ s.exch.keys ∧ keeps b.mirror = true)
    · have hr : b ∈ rem := hm.2 (hc.imp (fun h => ⟨hb, h⟩) (fun h => ⟨hb, h⟩))
      simp [hr, hc]
    · have hr : b ∉ rem := fun hr => hc ((hm.1 hr).imp (fun h => h.2) (fun h => h.2))
      simp only [hr, hc, if_false]; rfl
  · have : s.exch.get? b = none := get?_eq_none_iff.2 hb
    simp [this]

theorem ensuredNoDC_sub {s : St K} (hk : s.KeysNodup) {rem : List Bond} {b : Bond} {r : ℕ}
    (h : (s.ensuredNoDC rem).exch.get? b = some r) : s.exch.get? b = some r := by
  have : (s.ensuredNoDC rem).exch.get? b = if b ∈ rem then none else s.exch.get? b := by
    refine (get?_delAll _ hk.exch rem b).trans ?_
    by_cases hb : b ∈ rem <;> simp [hb]
  rw [this] at h
  split_ifs at h
  exact h

theorem ensuredNoDC_inv {s : St K} (hk : s.KeysNodup) (rem : List Bond) :
    (s.ensuredNoDC rem).KeysNodup ∧ (s.Alloc → (s.ensuredNoDC rem).Alloc) ∧
      (s.NoShare → (s.ensuredNoDC rem).NoShare) ∧ (s.Refer → (s.ensuredNoDC rem).Refer) := by
  refine ⟨⟨nodup_delAll _ _ hk.exch, hk.site⟩, fun h => ?_, fun h => ?_, fun h => ?_⟩
  · exact ⟨fun b r hb => h.exch b r (ensuredNoDC_sub hk hb), h.site⟩
  · exact ⟨fun b b' r h1 h2 => h.exch b b' r (ensuredNoDC_sub hk h1) (ensuredNoDC_sub hk h2), h.site,
      fun b a r h1 h2 => h.cross b a r (ensuredNoDC_sub hk h1) h2⟩
  · refine ⟨fun b hb => ?_, h.site⟩
    obtain ⟨r, hr⟩ := mem_keys_iff.1 hb
    exact h.exch b (mem_keys_iff.2 ⟨r, ensuredNoDC_sub hk hr⟩)

end St
end Magnopy
