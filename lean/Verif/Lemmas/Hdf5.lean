import Verif.Spec.Hdf5
import Verif.Lemmas.HamCons
import Mathlib.Data.Char
import Mathlib.Tactic.FieldSimp
import Mathlib.Tactic.Ring

/-!
# Helper lemmas: labels, loops and the crystal of an HDF5 file
-/

set_option autoImplicit false
set_option linter.unusedSectionVars false

namespace Magnopy

open PyDict

namespace H5

/-! ### Order of the labels -/

theorem nameLe_refl (s : Str) : nameLe s s = true := by
  induction s with
  | nil => rfl
  | cons a s ih => simp [nameLe, ih]

theorem nameLe_total (s t : Str) : nameLe s t = true ∨ nameLe t s = true := by
  induction s generalizing t with
  | nil => left; rfl
  | cons a s ih =>
    cases t with
    | nil => right; rfl
    | cons b t =>
      simp only [nameLe, Bool.or_eq_true, decide_eq_true_eq, Bool.and_eq_true]
      rcases lt_trichotomy a b with h | h | h
      · exact Or.inl (Or.inl h)
      · rcases ih t with h' | h'
        · exact Or.inl (Or.inr ⟨h, h'⟩)
        · exact Or.inr (Or.inr ⟨h.symm, h'⟩)
      · exact Or.inr (Or.inl h)

theorem nameLe_trans {s t u : Str} (h1 : nameLe s t = true) (h2 : nameLe t u = true) : nameLe s u = true := by
  induction s generalizing t u with
  | nil => rfl
  | cons a s ih =>
    cases t with
    | nil => simp [nameLe] at h1
    | cons b t =>
      cases u with
      | nil => simp [nameLe] at h2
      | cons c u =>
        simp only [nameLe, Bool.or_eq_true, decide_eq_true_eq, Bool.and_eq_true] at h1 h2 ⊢
        rcases h1 with h1 | ⟨h1, h1'⟩
        · rcases h2 with h2 | ⟨h2, _⟩
          · exact Or.inl (lt_trans h1 h2)
          · exact Or.inl (h2 ▸ h1)
        · rcases h2 with h2 | ⟨h2, h2'⟩
          · exact Or.inl (h1 ▸ h2)
          · exact Or.inr ⟨h1.trans h2, ih h1' h2'⟩

variable {α β : Type}

theorem labelled_snd (l : List α) : (labelled l).map Prod.snd = l := by
  rw [labelled, List.map_map]
  exact List.zipIdx_map_fst 0 l

theorem visit_perm (g : List (Str × α)) : (visit g).Perm (g.map Prod.snd) :=
  (List.perm_insertionSort _ g).map _

theorem visit_labelled_perm (l : List α) : (visit (labelled l)).Perm l := by
  have := visit_perm (labelled l)
  rwa [labelled_snd] at this

theorem labelled_map (f : α → β) (l : List α) : labelled (l.map f) = (labelled l).map fun p => (p.1, f p.2) := by
  rw [labelled, labelled, List.zipIdx_map, List.map_map, List.map_map]
  rfl

theorem visit_labelled_map (f : α → β) (l : List α) : visit (labelled (l.map f)) = (visit (labelled l)).map f := by
  rw [visit, visit, labelled_map, ← List.map_insertionSort (r := fun a b : Str × α => nameLe a.1 b.1 = true)
    (s := fun a b : Str × β => nameLe a.1 b.1 = true) _ _ (fun a _ b _ => Iff.rfl), List.map_map, List.map_map]
  rfl

theorem label_le : ∀ i j : Fin 9, i < j → nameLe (label i) (label j) = true := by decide +kernel

theorem label_ten : nameLe (label 1) (label 9) = false := by decide +kernel

theorem getElem_labelled {l : List α} {i : ℕ} (h : i < (labelled l).length) :
    (labelled l)[i] = (label i, l[i]'(by simpa [labelled] using h)) := by
  simp [labelled]

/-- Up to nine members are visited in the order in which they were written. -/
theorem visit_short {l : List α} (h : l.length ≤ 9) : visit (labelled l) = l := by
  have : (labelled l).Pairwise fun a b => nameLe a.1 b.1 = true := by
    rw [List.pairwise_iff_getElem]
    intro i j hi hj hij
    rw [getElem_labelled, getElem_labelled]
    have hi' : i < 9 := by simp [labelled] at hi; omega
    have hj' : j < 9 := by simp [labelled] at hj; omega
    exact label_le ⟨i, hi'⟩ ⟨j, hj'⟩ hij
  rw [visit, List.Pairwise.insertionSort_eq this, labelled_snd]

/-- With ten or more different members the order of the visit is another one. -/
theorem visit_long {l : List α} (hn : l.Nodup) (h : 9 < l.length) : visit (labelled l) ≠ l := by
  intro he
  have : Std.Total fun a b : Str × α => nameLe a.1 b.1 = true := ⟨fun a b => nameLe_total _ _⟩
  have : IsTrans (Str × α) fun a b => nameLe a.1 b.1 = true := ⟨fun a b c => nameLe_trans⟩
  have hp := List.perm_insertionSort (fun a b : Str × α => nameLe a.1 b.1 = true) (labelled l)
  have hs := List.pairwise_insertionSort (fun a b : Str × α => nameLe a.1 b.1 = true) (labelled l)
  set m := (labelled l).insertionSort fun a b : Str × α => nameLe a.1 b.1 = true with hm
  have hmm : m.map Prod.snd = l := he
  have hlen : m.length = l.length := by rw [← hmm, List.length_map]
  have key : ∀ i (hi : i < m.length), m[i].1 = label i := by
    intro i hi
    have h1 : m[i] ∈ labelled l := hp.mem_iff.1 (List.getElem_mem hi)
    obtain ⟨j, hj, hj'⟩ := List.getElem_of_mem h1
    rw [getElem_labelled] at hj'
    have h2 : m[i].2 = l[i]'(by omega) := by
      have : m[i].2 = (m.map Prod.snd)[i]'(by simpa using hi) := by simp
      rw [this]
      simp only [hmm]
    rw [← hj'] at h2 ⊢
    have hjl : j < l.length := by simpa [labelled] using hj
    have : j = i := (List.Nodup.getElem_inj_iff hn).1 h2
    exact congrArg label this
  have := List.pairwise_iff_getElem.1 hs 1 9 (by omega) (by omega) (by omega)
  rw [key, key, label_ten] at this
  exact absurd this (by simp)

theorem visit_eq_iff {l : List α} (hn : l.Nodup) : visit (labelled l) = l ↔ l.length ≤ 9 :=
  ⟨fun h => not_lt.1 fun h' => visit_long hn h' h, visit_short⟩

/-! ### Writing -/

section Dump
variable {K : Type}

/-- The complete group of an atom. -/
def atomG (x : Full K) (a : Atom) : AtomG K :=
  { name := a.name, pos := x.pos a, spin := x.spinVec a, gFactor := some (x.gFactor a), charge := x.charge a }

theorem writeAtoms {x : Full K} {l : List Atom} (h : ∀ a ∈ l, (x.spinVec a).isSome) (k : ℕ) (g : Group K) :
    forEach (l.zipIdx k) (writeAtom x) g =
      .ok { g with atoms := g.atoms ++ (l.zipIdx k).map fun p => (label p.2, atomG x p.1) } := by
  induction l generalizing k g with
  | nil => simp [forEach]
  | cons a l ih =>
    obtain ⟨v, hv⟩ := Option.isSome_iff_exists.1 (h a (by simp))
    rw [List.zipIdx_cons, forEach, writeAtom]
    simp only [hv, Res.ok_andThen]
    rw [ih fun b hb => h b (by simp [hb])]
    simp [atomG, hv]

theorem dumpGroup_spin {x : Full K} (h : ∃ a ∈ x.ham.atoms, x.spinVec a = none) :
    (dumpGroup x).err = some .valueError := by
  have key : ∀ (l : List Atom) (k : ℕ) (g : Group K), (∃ a ∈ l, x.spinVec a = none) →
      (forEach (l.zipIdx k) (writeAtom x) g).err = some .valueError := by
    intro l
    induction l with
    | nil => rintro k g ⟨a, ha, _⟩; simp at ha
    | cons b l ih =>
      rintro k g ⟨a, ha, hv⟩
      rw [List.zipIdx_cons, forEach, writeAtom]
      cases hb : x.spinVec b with
      | none => rfl
      | some v =>
        simp only [Res.ok_andThen]
        refine ih _ _ ⟨a, ?_, hv⟩
        rcases List.mem_cons.1 ha with rfl | ha
        · rw [hb] at hv; cases hv
        · exact ha
  have := key _ 0 (start x) h
  unfold dumpGroup
  rcases hr : forEach x.ham.atoms.zipIdx (writeAtom x) (start x) with ⟨s, e⟩
  rw [hr] at this
  simp only at this
  subst this
  rfl

/-- The notation which is written. -/
def notnG (x : Full K) : Option (NotationG K) :=
  if x.ham.exch = [] ∧ x.ham.onSite = [] then none
  else some { sn := x.ham.sn, dc := if x.ham.exch = [] then none else x.ham.dc,
              ef := if x.ham.exch = [] then none else x.ham.ef, osf := if x.ham.onSite = [] then none else x.ham.osf }

variable [Field K]

theorem writeNotation_ok {x : Full K} (h : Storable x) {g : Group K} (hg : g.notn = none) :
    writeNotation x g = .ok { g with notn := notnG x } := by
  unfold writeNotation notnG
  by_cases h0 : x.ham.exch = [] ∧ x.ham.onSite = []
  · rw [if_pos h0, if_pos h0, ← hg]
  · rw [if_neg h0, if_neg h0]
    obtain ⟨n, hn⟩ := Option.isSome_iff_exists.1 (h.sn (by tauto))
    simp only [writeSN, hn, Res.ok_andThen]
    by_cases he : x.ham.exch = []
    · have ho : x.ham.onSite ≠ [] := fun ho => h0 ⟨he, ho⟩
      obtain ⟨o, hos⟩ := Option.isSome_iff_exists.1 (h.osf ho)
      simp [writeEx, writeOs, he, ho, hos]
    · obtain ⟨d, hd⟩ := Option.isSome_iff_exists.1 (h.dc he)
      obtain ⟨e, hef⟩ := Option.isSome_iff_exists.1 (h.ef he)
      by_cases ho : x.ham.onSite = []
      · simp [writeEx, writeOs, he, ho, hd, hef]
      · obtain ⟨o, hos⟩ := Option.isSome_iff_exists.1 (h.osf ho)
        simp [writeEx, writeOs, he, ho, hd, hef, hos]

/-- The group of a Hamiltonian that can be stored. -/
theorem dumpGroup_ok {x : Full K} (h : Storable x) :
    dumpGroup x = .ok (writeRest x { start x with atoms := labelled (x.ham.atoms.map (atomG x)), notn := notnG x }) := by
  unfold dumpGroup
  rw [writeAtoms h.spins, Res.ok_andThen, writeNotation_ok h rfl, Res.ok_andThen, labelled_map]
  simp only [labelled, List.map_map, start, List.nil_append]
  rfl

end Dump

/-! ### Reading -/

section Load
variable {K : Type} [Field K]

/-- The data of an atom. -/
def recG (x : Full K) (a : Atom) : Rec K :=
  ⟨a.name, x.pos a, (x.spinVec a).getD 0, x.gFactor a, x.charge a⟩

theorem readAtomG_ok {x : Full K} {a : Atom} (hn : a.name ≠ "") (hs : (x.spinVec a).isSome) :
    readAtomG (atomG x a) = .ok (recG x a) := by
  obtain ⟨v, hv⟩ := Option.isSome_iff_exists.1 hs
  simp [readAtomG, atomG, recG, hn, hv]

theorem readAtomGs_ok {x : Full K} {l : List Atom} (hn : ∀ a ∈ l, a.name ≠ "") (hs : ∀ a ∈ l, (x.spinVec a).isSome) :
    readAtomGs (l.map (atomG x)) = .ok (l.map (recG x)) := by
  induction l with
  | nil => rfl
  | cons a l ih =>
    rw [List.map_cons, readAtomGs, readAtomG_ok (hn a (by simp)) (hs a (by simp)),
      ih (fun b hb => hn b (by simp [hb])) (fun b hb => hs b (by simp [hb]))]
    rfl

theorem crystal_names (L : Txt.Lib K) (cell : M3 K) (rs : List (Rec K)) :
    (crystal L cell rs).ham.atoms.map Atom.name = rs.map Rec.name := by
  simp only [crystal, St.empty]
  apply List.ext_getElem
  · simp
  · intro i h1 h2
    simp

theorem crystal_rec {L : Txt.Lib K} {cell : M3 K} {rs : List (Rec K)} {a : Atom} (h : a ∈ (crystal L cell rs).ham.atoms) :
    ∃ r ∈ rs, r.name = a.name ∧ recOf rs a = some r := by
  simp only [crystal, St.empty] at h
  obtain ⟨i, hi, rfl⟩ := List.getElem_of_mem h
  have hi' : i < rs.length := by simpa using hi
  refine ⟨rs[i], List.getElem_mem hi', ?_, ?_⟩
  · simp
  · simp [recOf, hi']

theorem filter_unique {l : List Atom} (h : (l.map Atom.name).Nodup) {A : Atom} (hA : A ∈ l) (p : Atom → Bool)
    (hp : ∀ a, p a = true ↔ a.name = A.name) : l.filter p = [A] := by
  induction l with
  | nil => simp at hA
  | cons x l ih =>
    rw [List.map_cons, List.nodup_cons] at h
    rcases List.mem_cons.1 hA with rfl | hA
    · rw [List.filter_cons_of_pos ((hp _).2 rfl), List.filter_eq_nil_iff.2]
      intro a ha h'
      exact h.1 ((hp a).1 h' ▸ List.mem_map_of_mem ha)
    · rw [List.filter_cons_of_neg, ih h.2 hA]
      intro h'
      exact h.1 ((hp x).1 h' ▸ List.mem_map_of_mem hA)

theorem getAtom_self {s : St K} (h : (s.atoms.map Atom.name).Nodup) {A : Atom} (hA : A ∈ s.atoms)
    (hp : ¬ ['_', '_'] <:+: A.name.toList) : s.getAtom A.name = .ok A := by
  rw [St.getAtom, filter_unique h hA]
  intro a
  have : (a.fullname == A.name) = false := by
    rw [beq_eq_false_iff_ne]
    intro e
    apply hp
    rw [← e]
    exact ⟨a.name.toList, (toString a.index).toList, by simp [Atom.fullname, String.toList_append]⟩
  simp [this]

theorem atomOf_self {s : St K} (h : (s.atoms.map Atom.name).Nodup) {A : Atom} (hA : A ∈ s.atoms)
    (hp : ¬ ['_', '_'] <:+: A.name.toList) : atomOf s A.name = .ok A := by
  rw [atomOf, getAtom_self h hA hp]; rfl

theorem alloc_alloc {s : St K} (ha : s.Alloc) (m : M3 K) : (s.alloc m).1.Alloc :=
  ⟨fun b r h => Nat.lt_succ_of_lt (ha.exch b r h), fun b r h => Nat.lt_succ_of_lt (ha.site b r h)⟩

theorem alloc_valE {s : St K} (ha : s.Alloc) (m : M3 K) (c : Bond) : (s.alloc m).1.valE c = s.valE c := by
  simp only [St.valE, St.alloc]
  cases h : s.exch.get? c with
  | none => rfl
  | some r => simp [Function.update_of_ne (ha.exch c r h).ne]

theorem alloc_valO {s : St K} (ha : s.Alloc) (m : M3 K) (c : Atom) : (s.alloc m).1.valO c = s.valO c := by
  simp only [St.valO, St.alloc]
  cases h : s.onSite.get? c with
  | none => rfl
  | some r => simp [Function.update_of_ne (ha.site c r h).ne]

theorem valE_mem {s : St K} {c : Bond} : s.valE c ≠ none ↔ c ∈ s.exch.keys := by
  rw [St.valE, ne_eq, Option.map_eq_none_iff, ← ne_eq, ← Option.isSome_iff_ne_none, isSome_get?_iff]

theorem valO_mem {s : St K} {c : Atom} : s.valO c ≠ none ↔ c ∈ s.onSite.keys := by
  rw [St.valO, ne_eq, Option.map_eq_none_iff, ← ne_eq, ← Option.isSome_iff_ne_none, isSome_get?_iff]

/-- What the loops leave alone. -/
structure Frame (s t : St K) : Prop where
  atoms : t.atoms = s.atoms
  dc : t.dc = s.dc
  sn : t.sn = s.sn
  ef : t.ef = s.ef
  osf : t.osf = s.osf
  spin : t.spin = s.spin

theorem Frame.rfl' {s : St K} : Frame s s := ⟨rfl, rfl, rfl, rfl, rfl, rfl⟩

theorem Frame.trans {s t u : St K} (h : Frame s t) (h' : Frame t u) : Frame s u :=
  ⟨h'.atoms.trans h.atoms, h'.dc.trans h.dc, h'.sn.trans h.sn, h'.ef.trans h.ef, h'.osf.trans h.osf, h'.spin.trans h.spin⟩

theorem readBondG_ok {s : St K} (ha : s.Alloc) {b : BondG K} {k : Bond} (h1 : atomOf s b.name1 = .ok k.1)
    (h2 : atomOf s b.name2 = .ok k.2.1) (h3 : b.ijk = k.2.2) (m1 : k.1 ∈ s.atoms) (m2 : k.2.1 ∈ s.atoms) :
    ∃ t, readBondG 1 b s = .ok t ∧ Frame s t ∧ t.Alloc ∧ t.onSite = s.onSite ∧ (∀ a, t.valO a = s.valO a) ∧
      ∀ c, t.valE c = if c = k then some b.matrix
        else if s.dc = some true ∧ c = k.mirror ∧ k.mirror ∉ s.exch.keys then some (Param.T b.matrix) else s.valE c := by
  refine ⟨(s.alloc b.matrix).1.putBond k s.next, ?_, ?_, ?_, ?_, ?_, ?_⟩
  · rw [readBondG, h1, h2, h3]
    simp only [Except.bind, St.addExchange, St.findOrAdd, if_pos m1, if_pos m2, one_smul, St.resolve]
    rfl
  · obtain ⟨f1, f2, f3, f4, f5, f6, f7, f8⟩ := St.putBond_frame (s.alloc b.matrix).1 k s.next
    exact ⟨f1, f3, f4, f5, f6, f7⟩
  · exact St.putBond_alloc (alloc_alloc ha _) _ (Nat.lt_succ_self _)
  · exact (St.putBond_frame (s.alloc b.matrix).1 k s.next).2.1
  · intro a
    rw [St.putBond_valO (alloc_alloc ha _), alloc_valO ha]
  · intro c
    rw [St.putBond_valE (alloc_alloc ha _) (Nat.lt_succ_self _), alloc_valE ha]
    simp [St.alloc]

theorem getAtom_congr {s t : St K} (h : t.atoms = s.atoms) (n : String) : atomOf t n = atomOf s n := by
  rw [atomOf, atomOf, St.getAtom, St.getAtom, h]

/-- The loop over the bonds, for any order of the bonds. -/
theorem foldBonds {l : List (BondG K)} {key : BondG K → Bond} {s : St K} (ha : s.Alloc)
    (h : ∀ b ∈ l, atomOf s b.name1 = .ok (key b).1 ∧ atomOf s b.name2 = .ok (key b).2.1 ∧ b.ijk = (key b).2.2 ∧
      (key b).1 ∈ s.atoms ∧ (key b).2.1 ∈ s.atoms) (hn : (l.map key).Nodup) :
    ∃ t, foldE (readBondG 1) l s = .ok t ∧ Frame s t ∧ t.Alloc ∧ t.onSite = s.onSite ∧ (∀ a, t.valO a = s.valO a) ∧
      (∀ b ∈ l, t.valE (key b) = some b.matrix) ∧
      (∀ c, t.valE c ≠ none → s.valE c ≠ none ∨ c ∈ l.map key ∨ (s.dc = some true ∧ ∃ k ∈ l.map key, c = k.mirror)) ∧
      ∀ c, s.valE c ≠ none → c ∉ l.map key → t.valE c = s.valE c := by
  induction l generalizing s with
  | nil =>
    exact ⟨s, rfl, Frame.rfl', ha, rfl, fun _ => rfl, fun b hb => by simp at hb, fun c hc => Or.inl hc, fun _ _ _ => rfl⟩
  | cons b l ih =>
    obtain ⟨h1, h2, h3, h4, h5⟩ := h b (by simp)
    obtain ⟨s1, e1, f1, a1, o1, v1, w1⟩ := readBondG_ok ha h1 h2 h3 h4 h5
    rw [List.map_cons, List.nodup_cons] at hn
    obtain ⟨t, e2, f2, a2, o2, v2, w2, x2, y2⟩ := ih a1 (fun b' hb' => by
      obtain ⟨g1, g2, g3, g4, g5⟩ := h b' (by simp [hb'])
      rw [getAtom_congr f1.atoms, getAtom_congr f1.atoms, f1.atoms]
      exact ⟨g1, g2, g3, g4, g5⟩) hn.2
    refine ⟨t, ?_, f1.trans f2, a2, o2.trans o1, fun a => (v2 a).trans (v1 a), ?_, ?_, ?_⟩
    · rw [foldE, e1]; exact e2
    · intro b' hb'
      rcases List.mem_cons.1 hb' with rfl | hb'
      · have : s1.valE (key b') = some b'.matrix := by rw [w1, if_pos rfl]
        rw [y2 _ (by rw [this]; simp) hn.1, this]
      · exact w2 b' hb'
    · intro c hc
      rcases x2 c hc with h' | h' | ⟨hd, k, hk, rfl⟩
      · rw [w1] at h'
        by_cases hck : c = key b
        · exact Or.inr (Or.inl (by simp [hck]))
        · rw [if_neg hck] at h'
          by_cases hm : s.dc = some true ∧ c = (key b).mirror ∧ (key b).mirror ∉ s.exch.keys
          · exact Or.inr (Or.inr ⟨hm.1, key b, by simp, hm.2.1⟩)
          · rw [if_neg hm] at h'
            exact Or.inl h'
      · exact Or.inr (Or.inl (List.mem_cons_of_mem _ h'))
      · exact Or.inr (Or.inr ⟨f1.dc ▸ hd, k, List.mem_cons_of_mem _ hk, rfl⟩)
    · intro c hc hcl
      rw [List.map_cons, List.mem_cons, not_or] at hcl
      have : s1.valE c = s.valE c := by
        rw [w1, if_neg hcl.1, if_neg]
        rintro ⟨_, rfl, hk⟩
        exact hk (valE_mem.1 hc)
      rw [y2 c (by rw [this]; exact hc) hcl.2, this]

theorem readSiteG_ok {s : St K} (ha : s.Alloc) {b : SiteG K} {k : Atom} (h1 : atomOf s b.name = .ok k)
    (m1 : k ∈ s.atoms) :
    ∃ t, readSiteG 1 b s = .ok t ∧ Frame s t ∧ t.Alloc ∧ t.exch = s.exch ∧ (∀ a, t.valE a = s.valE a) ∧
      ∀ c, t.valO c = if c = k then some b.matrix else s.valO c := by
  refine ⟨{ (s.alloc b.matrix).1 with onSite := s.onSite.set k s.next }, ?_, ⟨rfl, rfl, rfl, rfl, rfl, rfl⟩, ⟨?_, ?_⟩, rfl, ?_, ?_⟩
  · rw [readSiteG, h1]
    simp only [Except.bind, St.addOnSite, St.findOrAdd, if_pos m1, one_smul, St.resolve]
    rfl
  · exact (alloc_alloc ha _).exch
  · intro c r hr
    simp only [get?_set] at hr
    split at hr
    · cases hr; exact Nat.lt_succ_self _
    · exact Nat.lt_succ_of_lt (ha.site c r hr)
  · exact fun a => alloc_valE ha _ a
  · intro c
    by_cases hc : c = k
    · subst hc
      simp [St.valO, St.alloc]
    · rw [if_neg hc, ← alloc_valO ha b.matrix c]
      simp only [St.valO, get?_set, if_neg (fun e : k = c => hc e.symm)]
      rfl

/-- The loop over the on-site parameters, for any order. -/
theorem foldSites {l : List (SiteG K)} {key : SiteG K → Atom} {s : St K} (ha : s.Alloc)
    (h : ∀ b ∈ l, atomOf s b.name = .ok (key b) ∧ key b ∈ s.atoms) (hn : (l.map key).Nodup) :
    ∃ t, foldE (readSiteG 1) l s = .ok t ∧ Frame s t ∧ t.Alloc ∧ t.exch = s.exch ∧ (∀ a, t.valE a = s.valE a) ∧
      (∀ b ∈ l, t.valO (key b) = some b.matrix) ∧ ∀ c, c ∉ l.map key → t.valO c = s.valO c := by
  induction l generalizing s with
  | nil => exact ⟨s, rfl, Frame.rfl', ha, rfl, fun _ => rfl, fun b hb => by simp at hb, fun _ _ => rfl⟩
  | cons b l ih =>
    obtain ⟨h1, h2⟩ := h b (by simp)
    obtain ⟨s1, e1, f1, a1, o1, v1, w1⟩ := readSiteG_ok ha h1 h2
    rw [List.map_cons, List.nodup_cons] at hn
    obtain ⟨t, e2, f2, a2, o2, v2, w2, y2⟩ := ih a1 (fun b' hb' => by
      obtain ⟨g1, g2⟩ := h b' (by simp [hb'])
      rw [getAtom_congr f1.atoms, f1.atoms]
      exact ⟨g1, g2⟩) hn.2
    refine ⟨t, ?_, f1.trans f2, a2, o2.trans o1, fun a => (v2 a).trans (v1 a), ?_, ?_⟩
    · rw [foldE, e1]; exact e2
    · intro b' hb'
      rcases List.mem_cons.1 hb' with rfl | hb'
      · rw [y2 _ hn.1, w1, if_pos rfl]
      · exact w2 b' hb'
    · intro c hcl
      rw [List.map_cons, List.mem_cons, not_or] at hcl
      rw [y2 c hcl.2, w1, if_neg hcl.1]

end Load

end H5
end Magnopy
