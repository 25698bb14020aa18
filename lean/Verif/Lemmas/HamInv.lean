import Verif.Lemmas.HamDC

/-!
# Helper lemmas: invariants of histories of public calls
-/

set_option autoImplicit false

set_option linter.unusedSectionVars false

namespace Magnopy

open PyDict

namespace St

variable {K : Type*} [Field K]

theorem Inv.congr {s t : St K} (h : t.toHam = s.toHam) (hs : s.Inv) : t.Inv := by
  refine ⟨hs.nodup.congr h, hs.refer.congr h, ?_⟩
  have e1 : t.exch = s.exch := congrArg Ham.exch h
  have e2 : t.dc = s.dc := congrArg Ham.dc h
  rw [e1, e2]; exact hs.closed

theorem inv_empty (m : Mem K) (atoms : List Atom) (spin : Atom → Option K) (dist : Bond → K) :
    (St.empty m atoms spin dist).Inv :=
  ⟨⟨List.nodup_nil, List.nodup_nil⟩, ⟨fun _ h => by simp [St.empty] at h, fun _ h => by simp [St.empty] at h⟩,
    fun h => by simp [St.empty] at h⟩

theorem getAtom_mem {s : St K} {n : String} {a : Atom} (h : s.getAtom n = .ok a) : a ∈ s.atoms := by
  unfold getAtom at h
  split at h
  · next b hb =>
    cases h
    have : a ∈ s.atoms.filter (fun a => a.name == n || a.fullname == n) := by rw [hb]; simp
    exact List.mem_of_mem_filter this
  · cases h

theorem inv_addAtoms {s : St K} (hs : s.Inv) (l : List Atom) : ({ s with atoms := s.atoms ++ l } : St K).Inv :=
  ⟨⟨hs.nodup.exch, hs.nodup.site⟩,
    ⟨fun b hb => ⟨List.mem_append_left _ (hs.refer.exch b hb).1, List.mem_append_left _ (hs.refer.exch b hb).2⟩,
      fun a ha => List.mem_append_left _ (hs.refer.site a ha)⟩, hs.closed⟩

theorem findOrAdd_spec {s s' : St K} {x : AtomArg} {a : Atom} (h : s.findOrAdd x = .ok (s', a)) :
    a ∈ s'.atoms ∧ ∃ l, s' = { s with atoms := s.atoms ++ l } := by
  unfold findOrAdd at h
  cases x with
  | name n =>
    cases hg : s.getAtom n with
    | error e => simp [hg, Except.map] at h
    | ok b =>
      simp only [hg, Except.map, Except.ok.injEq, Prod.mk.injEq] at h
      obtain ⟨h1, h2⟩ := h
      subst h1; subst h2
      exact ⟨getAtom_mem hg, [], by simp⟩
  | atom b =>
    simp only [Except.ok.injEq, Prod.mk.injEq] at h
    obtain ⟨h1, h2⟩ := h
    subst h2
    by_cases hb : b ∈ s.atoms
    · simp only [hb, if_true] at h1; subst h1; exact ⟨hb, [], by simp⟩
    · simp only [hb, if_false] at h1; subst h1; exact ⟨by simp, [b], rfl⟩

theorem putBond_frame (s : St K) (b : Bond) (r : ℕ) :
    (s.putBond b r).atoms = s.atoms ∧ (s.putBond b r).onSite = s.onSite ∧ (s.putBond b r).dc = s.dc ∧
      (s.putBond b r).sn = s.sn ∧ (s.putBond b r).ef = s.ef ∧ (s.putBond b r).osf = s.osf ∧
      (s.putBond b r).spin = s.spin ∧ (s.putBond b r).dist = s.dist := by
  unfold putBond
  simp only
  split <;> exact ⟨rfl, rfl, rfl, rfl, rfl, rfl, rfl, rfl⟩

theorem putBond_keys (s : St K) (b : Bond) (r : ℕ) (c : Bond) :
    c ∈ (s.putBond b r).exch.keys ↔ c ∈ s.exch.keys ∨ c = b ∨ (s.dc = some true ∧ c = b.mirror) := by
  unfold putBond
  simp only
  split
  · next h =>
    simp only [alloc, mem_keys_set]
    simp only [h.1, true_and]
    tauto
  · next h =>
    rw [mem_keys_set]
    constructor
    · tauto
    · rintro (h1 | h1 | ⟨h1, h2⟩)
      · exact Or.inr h1
      · exact Or.inl h1
      · have : (s.exch.set b r).get? b.mirror ≠ none := fun e => h ⟨h1, e⟩
        rw [Ne, get?_eq_none_iff, not_not, mem_keys_set] at this
        rw [h2]; exact this

theorem putBond_nodup {s : St K} (hs : s.KeysNodup) (b : Bond) (r : ℕ) : (s.putBond b r).KeysNodup := by
  refine ⟨?_, by rw [(putBond_frame s b r).2.1]; exact hs.site⟩
  unfold putBond
  simp only
  split
  · exact nodup_set (nodup_set hs.exch _ _) _ _
  · exact nodup_set hs.exch _ _

theorem putBond_inv {s : St K} (hs : s.Inv) {b : Bond} (h1 : b.1 ∈ s.atoms) (h2 : b.2.1 ∈ s.atoms) (r : ℕ) :
    (s.putBond b r).Inv := by
  have hf := putBond_frame s b r
  refine ⟨putBond_nodup hs.nodup b r, ⟨fun c hc => ?_, ?_⟩, fun hd c hc => ?_⟩
  · rw [hf.1]
    rw [putBond_keys] at hc
    rcases hc with hc | rfl | ⟨_, rfl⟩
    · exact hs.refer.exch c hc
    · exact ⟨h1, h2⟩
    · exact ⟨h2, h1⟩
  · rw [hf.1, hf.2.1]; exact hs.refer.site
  · rw [hf.2.2.1] at hd
    rw [putBond_keys] at hc ⊢
    rcases hc with hc | rfl | ⟨_, rfl⟩
    · exact Or.inl (hs.closed hd c hc)
    · exact Or.inr (Or.inr ⟨hd, rfl⟩)
    · exact Or.inr (Or.inl (Bond.mirror_mirror b))

theorem resolve_toHam (s : St K) (p : ParamArg K) : (s.resolve p).1.toHam = s.toHam := by
  cases p <;> rfl

theorem addExchange_inv {s : St K} (hs : s.Inv) (x y : AtomArg) (R : Cell) (p : ParamArg K) :
    (s.addExchange x y R p).st.Inv := by
  unfold addExchange
  cases h1 : s.findOrAdd x with
  | error e => exact hs
  | ok q =>
    obtain ⟨s1, a⟩ := q
    obtain ⟨ha, l, rfl⟩ := findOrAdd_spec h1
    have hs1 := inv_addAtoms hs l
    simp only
    cases h2 : ({ s with atoms := s.atoms ++ l } : St K).findOrAdd y with
    | error e => exact hs1
    | ok q =>
      obtain ⟨s2, b⟩ := q
      obtain ⟨hb, l', rfl⟩ := findOrAdd_spec h2
      have hs2 := inv_addAtoms hs1 l'
      simp only [Res.st_ok]
      have ht := resolve_toHam ({ s with atoms := s.atoms ++ l ++ l' } : St K) p
      have hat := congrArg Ham.atoms ht
      apply putBond_inv (hs2.congr ht)
      · rw [hat]; exact List.mem_append_left _ ha
      · rw [hat]; exact hb

theorem addOnSite_inv {s : St K} (hs : s.Inv) (x : AtomArg) (p : ParamArg K) :
    (s.addOnSite x p).st.Inv := by
  unfold addOnSite
  cases h1 : s.findOrAdd x with
  | error e => exact hs
  | ok q =>
    obtain ⟨s1, a⟩ := q
    obtain ⟨ha, l, rfl⟩ := findOrAdd_spec h1
    have hs1 := inv_addAtoms hs l
    have ht := resolve_toHam ({ s with atoms := s.atoms ++ l } : St K) p
    have hs2 := hs1.congr ht
    simp only [Res.st_ok]
    have hat := congrArg Ham.atoms ht
    refine ⟨⟨hs2.nodup.exch, nodup_set hs2.nodup.site _ _⟩, ⟨hs2.refer.exch, fun c hc => ?_⟩, hs2.closed⟩
    rw [mem_keys_set] at hc
    rcases hc with rfl | hc
    · show c ∈ (resolve _ p).1.atoms
      rw [hat]; exact ha
    · exact hs2.refer.site c hc

theorem dropBond_keys {s : St K} (hs : s.KeysNodup) (b : Bond) (f : Bool)
    (hok : (s.dropBond b f).err = none) (c : Bond) :
    c ∈ (s.dropBond b f).st.exch.keys ↔ c ∈ s.exch.keys ∧ c ≠ b ∧ ¬ (s.dc = some true ∧ c = b.mirror) := by
  unfold dropBond at hok ⊢
  dsimp only at hok ⊢
  split_ifs at hok ⊢ with h1 h2
  · simp at hok
  · simp only [Res.st_ok]
    rw [mem_keys_del (nodup_del hs.exch _), mem_keys_del hs.exch]
    simp only [h2.1, true_and]
    tauto
  · simp only [Res.st_ok]
    rw [mem_keys_del hs.exch]
    constructor
    · rintro ⟨h3, h4⟩
      refine ⟨h4, h3, ?_⟩
      rintro ⟨h5, rfl⟩
      apply h2
      refine ⟨h5, ?_⟩
      rw [Ne, get?_eq_none_iff, not_not, mem_keys_del hs.exch]
      exact ⟨h3, h4⟩
    · rintro ⟨h3, h4, _⟩; exact ⟨h4, h3⟩

theorem dropBond_frame (s : St K) (b : Bond) (f : Bool) :
    (s.dropBond b f).st.toMem = s.toMem ∧
    (s.dropBond b f).st.toHam = { s.toHam with exch := (s.dropBond b f).st.exch } := by
  unfold dropBond
  dsimp only
  split_ifs <;> exact ⟨rfl, rfl⟩

theorem dropBond_err {s : St K} {b : Bond} {f : Bool} (h : (s.dropBond b f).err ≠ none) :
    (s.dropBond b f).st = s ∧ (s.dropBond b f).err = some .keyError ∧ b ∉ s.exch.keys ∧ f = true := by
  unfold dropBond at h ⊢
  dsimp only at h ⊢
  split_ifs at h ⊢ with h1 h2
  · exact ⟨rfl, rfl, get?_eq_none_iff.1 h1.1, h1.2⟩
  · simp at h
  · simp at h

theorem dropBond_nodup {s : St K} (hs : s.KeysNodup) (b : Bond) (f : Bool) :
    (s.dropBond b f).st.KeysNodup := by
  unfold dropBond
  dsimp only
  split_ifs with h1 h2
  · exact hs
  · exact ⟨nodup_del (nodup_del hs.exch _) _, hs.site⟩
  · exact ⟨nodup_del hs.exch _, hs.site⟩

theorem dropBond_inv {s : St K} (hs : s.Inv) (b : Bond) (f : Bool) : (s.dropBond b f).st.Inv := by
  by_cases hok : (s.dropBond b f).err = none
  · have hk := dropBond_keys hs.nodup b f hok
    have hf := (dropBond_frame s b f).2
    have e1 : (s.dropBond b f).st.atoms = s.atoms := (congrArg Ham.atoms hf :)
    have e2 : (s.dropBond b f).st.onSite = s.onSite := (congrArg Ham.onSite hf :)
    have e3 : (s.dropBond b f).st.dc = s.dc := (congrArg Ham.dc hf :)
    refine ⟨dropBond_nodup hs.nodup b f, ⟨fun c hc => ?_, ?_⟩, fun hd c hc => ?_⟩
    · rw [e1]; exact hs.refer.exch c ((hk c).1 hc).1
    · rw [e1, e2]; exact hs.refer.site
    · rw [e3] at hd
      rw [hk] at hc ⊢
      refine ⟨hs.closed hd c hc.1, ?_, ?_⟩
      · rintro e; exact hc.2.2 ⟨hd, by rw [← e, Bond.mirror_mirror]⟩
      · rintro ⟨_, e⟩; exact hc.2.1 (Bond.mirror_injective e)
  · rw [(dropBond_err hok).1]; exact hs

theorem removeExchange_inv {s : St K} (hs : s.Inv) (x y : AtomArg) (R : Cell) (f : Bool) :
    (s.removeExchange x y R f).st.Inv := by
  unfold removeExchange
  split
  · exact hs
  · split
    · exact hs
    · exact dropBond_inv hs _ _

theorem removeOnSite_inv {s : St K} (hs : s.Inv) (x : AtomArg) (f : Bool) :
    (s.removeOnSite x f).st.Inv := by
  unfold removeOnSite
  split
  · split
    · exact hs
    · split_ifs <;> exact hs
  · next a =>
    split_ifs
    · exact hs
    · exact hs
    · refine ⟨⟨hs.nodup.exch, nodup_del hs.nodup.site _⟩, ⟨hs.refer.exch, fun c hc => ?_⟩, hs.closed⟩
      exact hs.refer.site c ((mem_keys_del hs.nodup.site).1 hc).2

theorem setItem_inv {s : St K} (hs : s.Inv) (k : Key) (p : ParamArg K) : (s.setItem k p).st.Inv := by
  cases k
  · exact addOnSite_inv hs _ _
  · exact addExchange_inv hs _ _ _ _
  · exact hs

theorem delItem_inv {s : St K} (hs : s.Inv) (k : Key) : (s.delItem k).st.Inv := by
  cases k
  · exact removeOnSite_inv hs _ _
  · exact removeExchange_inv hs _ _ _ _
  · exact hs

theorem delEntry_inv {s : St K} (hs : s.Inv) (k : Bond ⊕ Atom) : (delEntry k s).st.Inv := by
  cases k <;> exact delItem_inv hs _

theorem filter_inv [LinearOrder K] {s : St K} (hs : s.Inv) (a b : Option K) (c : Option (M3 K → Bool))
    (o : List (Bond ⊕ Atom) → List (Bond ⊕ Atom)) : (s.filter a b c o).st.Inv := by
  refine forEach_inv (P := Inv) (fun k t ht => ?_) _ _ hs
  unfold catchKeyError
  split_ifs <;> exact delEntry_inv ht k

/-- An entry is gone. -/
def Gone (k : Bond ⊕ Atom) (s : St K) : Prop :=
  match k with
  | .inl b => b ∉ s.exch.keys
  | .inr a => a ∉ s.onSite.keys

theorem delEntry_atoms (k : Bond ⊕ Atom) (s : St K) : (delEntry k s).st.atoms = s.atoms := by
  cases k with
  | inl b =>
    have := (dropBond_frame s b true).2
    exact (congrArg Ham.atoms this :)
  | inr a =>
    simp only [delEntry, delItem, removeOnSite]
    split_ifs <;> rfl

theorem delEntry_sub {s : St K} (hs : s.KeysNodup) (k j : Bond ⊕ Atom) (h : Gone j s) :
    Gone j (delEntry k s).st := by
  cases k with
  | inl b =>
    have e : delEntry (.inl b) s = s.dropBond b true := rfl
    rw [e]
    cases j with
    | inl c =>
      by_cases hok : (s.dropBond b true).err = none
      · intro hc; exact h ((dropBond_keys hs b true hok c).1 hc).1
      · rw [(dropBond_err hok).1]; exact h
    | inr c =>
      have e2 : (s.dropBond b true).st.onSite = s.onSite := (congrArg Ham.onSite (dropBond_frame s b true).2 :)
      show c ∉ (s.dropBond b true).st.onSite.keys
      rw [e2]; exact h
  | inr a =>
    simp only [delEntry, delItem, removeOnSite]
    split_ifs
    · exact h
    · cases j with
      | inl c => exact h
      | inr c => exact fun hc => h ((mem_keys_del hs.site).1 hc).2

theorem delEntry_gone {s : St K} (hs : s.KeysNodup) (k : Bond ⊕ Atom) (hok : (delEntry k s).err = none) :
    Gone k (delEntry k s).st := by
  cases k with
  | inl b =>
    have e : delEntry (.inl b) s = s.dropBond b true := rfl
    rw [e] at hok ⊢
    intro hb
    exact ((dropBond_keys hs b true hok b).1 hb).2.1 rfl
  | inr a =>
    simp only [delEntry, delItem, removeOnSite] at hok ⊢
    split_ifs at hok ⊢ with h
    · simp at hok
    · exact fun hc => ((mem_keys_del hs.site).1 hc).1 rfl

theorem forEach_gone (ks : List (Bond ⊕ Atom)) {s : St K} (hs : s.Inv)
    (hok : (forEach ks delEntry s).err = none) : ∀ k ∈ ks, Gone k (forEach ks delEntry s).st := by
  induction ks generalizing s with
  | nil => simp
  | cons k ks ih =>
    simp only [forEach] at hok ⊢
    unfold Res.andThen at hok ⊢
    have hinv := delEntry_inv hs k
    cases he : (delEntry k s).err with
    | some e => simp [he] at hok
    | none =>
      simp only [he] at hok ⊢
      have hg := delEntry_gone hs.nodup k he
      intro j hj
      rcases List.mem_cons.1 hj with rfl | hj
      · refine (forEach_inv (P := fun t : St K => t.Inv ∧ Gone j t) (fun x t ht => ?_) ks _ ⟨hinv, hg⟩).2
        exact ⟨delEntry_inv ht.1 x, delEntry_sub ht.1.nodup x j ht.2⟩
      · exact ih hinv hok j hj

theorem removeAtom_inv {s : St K} (hs : s.Inv) (x : AtomArg) : (s.removeAtom x).st.Inv := by
  unfold removeAtom
  cases hx : s.find x with
  | error e => exact hs
  | ok a =>
    simp only
    generalize hks : (((s.exch.keys.filter fun b => b.1 = a ∨ b.2.1 = a).map Sum.inl) ++
      (if s.onSite.get? a ≠ none then [Sum.inr a] else []) : List (Bond ⊕ Atom)) = ks
    have hinv : (forEach ks delEntry s).st.Inv := forEach_inv (P := Inv) (fun k t ht => delEntry_inv ht k) _ _ hs
    unfold Res.andThen
    cases he : (forEach ks delEntry s).err with
    | some e => exact hinv
    | none =>
      simp only
      have hg := forEach_gone ks hs he
      split_ifs with ha
      · simp only [Res.st_ok]
        have hsub : ∀ k : Bond ⊕ Atom, Gone k s → Gone k (forEach ks delEntry s).st := fun k hk =>
          (forEach_inv (P := fun t : St K => t.Inv ∧ Gone k t)
            (fun x t ht => ⟨delEntry_inv ht.1 x, delEntry_sub ht.1.nodup x k ht.2⟩) ks _ ⟨hs, hk⟩).2
        refine ⟨⟨hinv.nodup.exch, hinv.nodup.site⟩, ⟨fun b hb => ?_, fun c hc => ?_⟩, hinv.closed⟩
        · have hbs : b ∈ s.exch.keys := by
            by_contra h; exact hsub (.inl b) h hb
          have hba : ¬ (b.1 = a ∨ b.2.1 = a) := by
            intro h
            refine hg (.inl b) ?_ hb
            rw [← hks]
            exact List.mem_append_left _ (List.mem_map.2 ⟨b, List.mem_filter.2 ⟨hbs, by simpa using h⟩, rfl⟩)
          rw [not_or] at hba
          have := hinv.refer.exch b hb
          exact ⟨(List.mem_erase_of_ne hba.1).2 this.1, (List.mem_erase_of_ne hba.2).2 this.2⟩
        · have hcs : c ∈ s.onSite.keys := by
            by_contra h; exact hsub (.inr c) h hc
          have hca : c ≠ a := by
            rintro rfl
            refine hg (.inr c) ?_ hc
            rw [← hks]
            have : s.onSite.get? c ≠ none := by rw [Ne, get?_eq_none_iff, not_not]; exact hcs
            simp [this]
          exact (List.mem_erase_of_ne hca).2 (hinv.refer.site c hc)
      · exact hinv

/-! ### Notation setters -/

theorem scaleExch_const_err {s : St K} (hk : s.KeysNodup) (x : K) :
    (scaleExch (fun _ _ => .ok x) s).err = none := by
  rw [scaleExch_ok hk.exch (fun _ => x) (fun _ _ _ _ => rfl)]; rfl

theorem scaleExch_const_eq {s : St K} (hk : s.KeysNodup) (x : K) :
    scaleExch (fun _ _ => .ok x) s = .ok (s.exch.foldl (wr fun _ => x) s) :=
  scaleExch_ok hk.exch (fun _ => x) (fun _ _ _ _ => rfl)

/-- The factor by which `double_counting.setter` multiplies the exchange parameters. -/
def dcFactor (old : Option Bool) (new : Bool) : K :=
  if old = some true ∧ new = false then 2 else if old = some false ∧ new = true then 1 / 2 else 1

/-- The state of `double_counting.setter` after its scaling loop. -/
def dcScaled (s : St K) (new : Bool) : St K :=
  let s1 : St K := { s with dc := some new }
  if (s.dc = some true ∧ new = false) ∨ (s.dc = some false ∧ new = true) then
    s1.exch.foldl (wr fun _ => dcFactor s.dc new) s1
  else s1

theorem setDC_eq {s : St K} (hk : s.KeysNodup) (new : Bool) :
    s.setDC new = (if new then ensureDC else ensureNoDC) (s.dcScaled new) := by
  have hk1 : ({ s with dc := some new } : St K).KeysNodup := ⟨hk.exch, hk.site⟩
  unfold setDC dcScaled dcFactor
  simp only [scaleExch_const_eq hk1]
  by_cases h1 : s.dc = some true ∧ new = false
  · simp [h1]
  · by_cases h2 : s.dc = some false ∧ new = true
    · simp [h2]
    · simp only [h1, h2, if_false, or_self]; rfl

theorem dcScaled_toHam (s : St K) (new : Bool) :
    (s.dcScaled new).toHam = { s.toHam with dc := some new } ∧ (s.dcScaled new).next = s.next := by
  unfold dcScaled
  simp only
  split_ifs
  · exact foldl_wr_frame _ _ _
  · exact ⟨rfl, rfl⟩

theorem setDC_inv {s : St K} (hs : s.Inv) (new : Bool) : (s.setDC new).st.Inv := by
  rw [setDC_eq hs.nodup]
  have hf := (dcScaled_toHam s new).1
  have hk1 : ({ s with dc := some new } : St K).KeysNodup := ⟨hs.nodup.exch, hs.nodup.site⟩
  have hr1 : ({ s with dc := some new } : St K).Refer := ⟨hs.refer.exch, hs.refer.site⟩
  have hk : (s.dcScaled new).KeysNodup := hk1.congr hf
  have hr : (s.dcScaled new).Refer := hr1.congr hf
  have hd : (s.dcScaled new).dc = some new := congrArg Ham.dc hf
  cases new with
  | true =>
    simp only [if_true]
    rw [ensureDC_eq hr]
    refine ⟨ensuredDC_keysNodup hk, ensuredDC_refer hk hr, fun _ b hb => ?_⟩
    simp only [Res.st_ok] at hb ⊢
    rw [ensuredDC_keys hk] at hb ⊢
    rw [Bond.mirror_mirror]; exact hb.symm
  | false =>
    simp only [Bool.false_eq_true, if_false]
    cases hc : (s.dcScaled false).collectRemovals (s.dcScaled false).exch.keys with
    | error e =>
      have : ensureNoDC (s.dcScaled false) = .raise (s.dcScaled false) e := by
        unfold ensureNoDC; rw [hc]
      rw [this]
      exact ⟨hk, hr, fun h => by simp only [Res.st_raise, hd] at h; cases h⟩
    | ok rem =>
      have hne : (s.dcScaled false).dc ≠ some true := by rw [hd]; simp
      rw [ensureNoDC_eq hne hc]
      have := ensuredNoDC_inv hk rem
      refine ⟨this.1, this.2.2.2 hr, fun h => ?_⟩
      simp only [Res.st_ok, ensuredNoDC, hd] at h
      cases h

theorem setSN_inv {s : St K} (hs : s.Inv) (new : Bool) : (s.setSN new).st.Inv := by
  unfold setSN
  refine Res.andThen_inv (P := Inv) ?_ (fun t ht => ⟨⟨ht.nodup.exch, ht.nodup.site⟩, ⟨ht.refer.exch, ht.refer.site⟩, ht.closed⟩)
  split_ifs
  · exact Res.andThen_inv (P := Inv) (hs.congr (scaleExch_toHam _ _).1) (fun t ht => ht.congr (scaleSite_toHam _ _).1)
  · exact Res.andThen_inv (P := Inv) (hs.congr (scaleExch_toHam _ _).1) (fun t ht => ht.congr (scaleSite_toHam _ _).1)
  · exact hs

theorem setEF_inv [DecidableEq K] {s : St K} (hs : s.Inv) (x : K) : (s.setEF x).st.Inv := by
  unfold setEF
  refine Res.andThen_inv (P := Inv) ?_ (fun t ht => ⟨⟨ht.nodup.exch, ht.nodup.site⟩, ⟨ht.refer.exch, ht.refer.site⟩, ht.closed⟩)
  split
  · split_ifs
    · exact hs.congr (scaleExch_toHam _ _).1
    · exact hs
  · exact hs

theorem setOF_inv [DecidableEq K] {s : St K} (hs : s.Inv) (x : K) : (s.setOF x).st.Inv := by
  unfold setOF
  refine Res.andThen_inv (P := Inv) ?_ (fun t ht => ⟨⟨ht.nodup.exch, ht.nodup.site⟩, ⟨ht.refer.exch, ht.refer.site⟩, ht.closed⟩)
  split
  · split_ifs
    · exact hs.congr (scaleSite_toHam _ _).1
    · exact hs
  · exact hs

theorem setFour_inv [DecidableEq K] {s : St K} (hs : s.Inv) (d n : Bool) (e o : K) : (s.setFour d n e o).st.Inv :=
  Res.andThen_inv (P := Inv) (Res.andThen_inv (P := Inv) (Res.andThen_inv (P := Inv) (setDC_inv hs d)
    (fun _ h => setSN_inv h n)) (fun _ h => setEF_inv h e)) (fun _ h => setOF_inv h o)

theorem setNotation_inv [DecidableEq K] {s : St K} (hs : s.Inv) (a : NotationArg K) : (s.setNotation a).st.Inv := by
  unfold setNotation
  split
  · split
    · exact setFour_inv hs _ _ _ _
    · exact hs
  · exact setFour_inv hs _ _ _ _
  · exact setFour_inv hs _ _ _ _
  · exact hs
  · exact hs

end St

theorem step_inv {K : Type*} [Field K] [LinearOrder K] (o : Op K) (s : St K) (hs : s.Inv) : (o.step s).st.Inv := by
  cases o with
  | newParam m => exact St.Inv.congr (s := s) rfl hs
  | writeParam r m => exact St.Inv.congr (s := s) rfl hs
  | addAtom a =>
    simp only [Op.step, Res.st_ok]
    split_ifs
    · exact hs
    · exact St.inv_addAtoms hs _
  | addExchange x y R p => exact St.addExchange_inv hs x y R p
  | removeExchange x y R f => exact St.removeExchange_inv hs x y R f
  | addOnSite x p => exact St.addOnSite_inv hs x p
  | removeOnSite x f => exact St.removeOnSite_inv hs x f
  | setItem k p => exact St.setItem_inv hs k p
  | delItem k => exact St.delItem_inv hs k
  | filter a b c o => exact St.filter_inv hs a b c o
  | removeAtom x => exact St.removeAtom_inv hs x
  | setDC b => exact St.setDC_inv hs b
  | setSN b => exact St.setSN_inv hs b
  | setEF x => exact St.setEF_inv hs x
  | setOF x => exact St.setOF_inv hs x
  | setNotation a => exact St.setNotation_inv hs a

theorem runOps_inv {K : Type*} [Field K] [LinearOrder K] (ops : List (Op K)) (s : St K) (hs : s.Inv) :
    (runOps ops s).Inv := by
  induction ops generalizing s with
  | nil => exact hs
  | cons o os ih => exact ih _ (step_inv o s hs)

end Magnopy
