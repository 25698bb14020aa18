import Verif.Lemmas.HamCons

/-!
# Helper lemmas: histories that keep mirrors consistent
-/

set_option autoImplicit false

set_option linter.unusedSectionVars false

namespace Magnopy

open PyDict

namespace St

variable {K : Type*} [Field K]

/-! ### Spins are never changed -/

theorem scaleExch_spin (c : Bond → St K → Except PyErr K) (s : St K) : (scaleExch c s).st.spin = s.spin :=
  (congrArg Ham.spin (scaleExch_toHam c s).1 :)

theorem scaleSite_spin (c : Atom → St K → Except PyErr K) (s : St K) : (scaleSite c s).st.spin = s.spin :=
  (congrArg Ham.spin (scaleSite_toHam c s).1 :)

theorem addExchange_spin (s : St K) (x y : AtomArg) (R : Cell) (p : ParamArg K) :
    (s.addExchange x y R p).st.spin = s.spin := by
  unfold addExchange
  cases h1 : s.findOrAdd x with
  | error e => rfl
  | ok q =>
    obtain ⟨s1, a⟩ := q
    obtain ⟨_, l, rfl⟩ := findOrAdd_spec h1
    cases h2 : ({ s with atoms := s.atoms ++ l } : St K).findOrAdd y with
    | error e => simp only [h2]; rfl
    | ok q =>
      obtain ⟨s2, b⟩ := q
      obtain ⟨_, l', rfl⟩ := findOrAdd_spec h2
      simp only [h2]
      refine (putBond_frame _ _ _).2.2.2.2.2.2.1.trans ?_
      exact (congrArg Ham.spin (resolve_toHam _ p) :)

theorem addOnSite_spin (s : St K) (x : AtomArg) (p : ParamArg K) :
    (s.addOnSite x p).st.spin = s.spin := by
  unfold addOnSite
  cases h1 : s.findOrAdd x with
  | error e => rfl
  | ok q =>
    obtain ⟨s1, a⟩ := q
    obtain ⟨_, l, rfl⟩ := findOrAdd_spec h1
    exact (congrArg Ham.spin (resolve_toHam _ p) :)

theorem dropBond_spin (s : St K) (b : Bond) (f : Bool) : (s.dropBond b f).st.spin = s.spin :=
  (congrArg Ham.spin (dropBond_frame s b f).2 :)

theorem removeExchange_spin (s : St K) (x y : AtomArg) (R : Cell) (f : Bool) :
    (s.removeExchange x y R f).st.spin = s.spin := by
  unfold removeExchange
  cases s.find x with
  | error e => rfl
  | ok a =>
    cases s.find y with
    | error e => rfl
    | ok b => exact dropBond_spin _ _ _

theorem removeOnSite_spin (s : St K) (x : AtomArg) (f : Bool) : (s.removeOnSite x f).st.spin = s.spin := by
  unfold removeOnSite
  split
  · split
    · rfl
    · split_ifs <;> rfl
  · split_ifs <;> rfl

theorem setItem_spin (s : St K) (k : Key) (p : ParamArg K) : (s.setItem k p).st.spin = s.spin := by
  cases k with
  | site x => exact addOnSite_spin _ _ _
  | bond x y R => exact addExchange_spin _ _ _ _ _
  | bad => rfl

theorem delItem_spin (s : St K) (k : Key) : (s.delItem k).st.spin = s.spin := by
  cases k with
  | site x => exact removeOnSite_spin _ _ _
  | bond x y R => exact removeExchange_spin _ _ _ _ _
  | bad => rfl

theorem delEntry_spin (s : St K) (k : Bond ⊕ Atom) : (delEntry k s).st.spin = s.spin := by
  cases k <;> exact delItem_spin _ _

theorem filter_spin [LinearOrder K] (s : St K) (a b : Option K) (c : Option (M3 K → Bool))
    (o : List (Bond ⊕ Atom) → List (Bond ⊕ Atom)) : (s.filter a b c o).st.spin = s.spin := by
  refine forEach_inv (P := fun t : St K => t.spin = s.spin) (fun k t ht => ?_) _ _ rfl
  unfold catchKeyError
  split_ifs <;> exact (delEntry_spin t k).trans ht

theorem removeAtom_spin (s : St K) (x : AtomArg) : (s.removeAtom x).st.spin = s.spin := by
  unfold removeAtom
  cases s.find x with
  | error e => rfl
  | ok a =>
    refine Res.andThen_inv (P := fun t : St K => t.spin = s.spin)
      (forEach_inv (P := fun t : St K => t.spin = s.spin) (fun k t ht => (delEntry_spin t k).trans ht) _ _ rfl) ?_
    intro t ht
    split_ifs <;> exact ht

theorem setDC_spin (s : St K) (new : Bool) : (s.setDC new).st.spin = s.spin := by
  unfold setDC
  refine Res.andThen_inv (P := fun t : St K => t.spin = s.spin) ?_ (fun t ht => ?_)
  · split_ifs
    · exact scaleExch_spin _ _
    · exact scaleExch_spin _ _
    · rfl
  · split_ifs
    · unfold ensureDC
      refine forEach_inv (P := fun t : St K => t.spin = s.spin)
        (fun p u hu => (addExchange_spin u _ _ _ _).trans hu) _ _ ?_
      exact (congrArg Ham.spin (collectMirrors_spec t.exch t).1 :).trans ht
    · unfold ensureNoDC
      split
      · exact ht
      · exact forEach_inv (P := fun t : St K => t.spin = s.spin)
          (fun p u hu => (removeExchange_spin u _ _ _ _).trans hu) _ _ ht

theorem setSN_spin (s : St K) (new : Bool) : (s.setSN new).st.spin = s.spin := by
  unfold setSN
  refine Res.andThen_inv (P := fun t : St K => t.spin = s.spin) ?_ (fun t ht => ht)
  split_ifs
  · exact Res.andThen_inv (P := fun t : St K => t.spin = s.spin) (scaleExch_spin _ _)
      (fun t ht => (scaleSite_spin _ _).trans ht)
  · exact Res.andThen_inv (P := fun t : St K => t.spin = s.spin) (scaleExch_spin _ _)
      (fun t ht => (scaleSite_spin _ _).trans ht)
  · rfl

theorem setEF_spin [DecidableEq K] (s : St K) (x : K) : (s.setEF x).st.spin = s.spin := by
  unfold setEF
  refine Res.andThen_inv (P := fun t : St K => t.spin = s.spin) ?_ (fun t ht => ht)
  split
  · split_ifs
    · exact scaleExch_spin _ _
    · rfl
  · rfl

theorem setOF_spin [DecidableEq K] (s : St K) (x : K) : (s.setOF x).st.spin = s.spin := by
  unfold setOF
  refine Res.andThen_inv (P := fun t : St K => t.spin = s.spin) ?_ (fun t ht => ht)
  split
  · split_ifs
    · exact scaleSite_spin _ _
    · rfl
  · rfl

/-- The invariant together with the spins of the atoms. -/
structure Inv3 (sp : Atom → K) (s : St K) : Prop where
  inv2 : s.Inv2
  spin : ∀ a, s.spin a = some (sp a)

theorem Inv3.mk' {sp : Atom → K} {s t : St K} (hs : s.Inv3 sp) (h1 : t.Inv2) (h2 : t.spin = s.spin) : t.Inv3 sp :=
  ⟨h1, fun a => by rw [h2]; exact hs.spin a⟩

theorem setFour_inv3 [DecidableEq K] {sp : Atom → K} {s : St K} (hs : s.Inv3 sp) (d n : Bool) (e o : K) :
    (s.setFour d n e o).st.Inv3 sp :=
  Res.andThen_inv (P := Inv3 sp) (Res.andThen_inv (P := Inv3 sp) (Res.andThen_inv (P := Inv3 sp)
    (hs.mk' (setDC_inv2 hs.inv2 d) (setDC_spin s d))
    (fun t h => h.mk' (setSN_inv2 h.inv2 h.spin n) (setSN_spin t n)))
    (fun t h => h.mk' (setEF_inv2 h.inv2 e) (setEF_spin t e)))
    (fun t h => h.mk' (setOF_inv2 h.inv2 o) (setOF_spin t o))

theorem setNotation_inv3 [DecidableEq K] {sp : Atom → K} {s : St K} (hs : s.Inv3 sp) (a : NotationArg K) :
    (s.setNotation a).st.Inv3 sp := by
  unfold setNotation
  split
  · split
    · exact setFour_inv3 hs _ _ _ _
    · exact hs
  · exact setFour_inv3 hs _ _ _ _
  · exact setFour_inv3 hs _ _ _ _
  · exact hs
  · exact hs

end St

variable {K : Type*} [Field K] [LinearOrder K]

theorem step_inv3 {sp : Atom → K} (o : Op K) (s : St K) (hs : s.Inv3 sp) (hg : o.Good s) :
    (o.step s).st.Inv3 sp := by
  cases o with
  | newParam m =>
    refine hs.mk' (hs.inv2.of_same (t := (s.alloc m).1) (St.Inv.congr (s := s) rfl hs.inv2.inv) (fun _ _ h => h) (fun _ _ h => h)
      (Nat.le_succ _) (fun b q h => ?_)) rfl
    have := hs.inv2.alloc.exch b q h
    have : q ≠ s.next := by omega
    simp [St.alloc, this]
  | writeParam r m =>
    refine hs.mk' (hs.inv2.of_same (t := s.write r m) (St.Inv.congr (s := s) rfl hs.inv2.inv) (fun _ _ h => h) (fun _ _ h => h)
      (le_refl _) (fun b q h => ?_)) rfl
    have : q ≠ r := by rintro rfl; exact hg.1 b h
    simp [St.write, this]
  | addAtom a =>
    simp only [Op.step, Res.st_ok]
    split_ifs
    · exact hs
    · exact hs.mk' (St.inv2_addAtoms hs.inv2 _) rfl
  | addExchange x y R p => exact hs.mk' (St.addExchange_inv2 hs.inv2 hg) (St.addExchange_spin _ _ _ _ _)
  | removeExchange x y R f => exact hs.mk' (St.removeExchange_inv2 hs.inv2 x y R f) (St.removeExchange_spin _ _ _ _ _)
  | addOnSite x p => exact hs.mk' (St.addOnSite_inv2 hs.inv2 hg) (St.addOnSite_spin _ _ _)
  | removeOnSite x f => exact hs.mk' (St.removeOnSite_inv2 hs.inv2 x f) (St.removeOnSite_spin _ _ _)
  | setItem k p =>
    cases k with
    | site x => exact hs.mk' (St.addOnSite_inv2 hs.inv2 hg) (St.addOnSite_spin _ _ _)
    | bond x y R => exact hs.mk' (St.addExchange_inv2 hs.inv2 hg) (St.addExchange_spin _ _ _ _ _)
    | bad => exact hs
  | delItem k =>
    cases k with
    | site x => exact hs.mk' (St.removeOnSite_inv2 hs.inv2 x _) (St.removeOnSite_spin _ _ _)
    | bond x y R => exact hs.mk' (St.removeExchange_inv2 hs.inv2 x y R _) (St.removeExchange_spin _ _ _ _ _)
    | bad => exact hs
  | filter a b c o => exact hs.mk' (St.filter_inv2 hs.inv2 a b c o) (St.filter_spin _ _ _ _ _)
  | removeAtom x => exact hs.mk' (St.removeAtom_inv2 hs.inv2 x) (St.removeAtom_spin _ _)
  | setDC b => exact hs.mk' (St.setDC_inv2 hs.inv2 b) (St.setDC_spin _ _)
  | setSN b => exact hs.mk' (St.setSN_inv2 hs.inv2 hs.spin b) (St.setSN_spin _ _)
  | setEF x => exact hs.mk' (St.setEF_inv2 hs.inv2 x) (St.setEF_spin _ _)
  | setOF x => exact hs.mk' (St.setOF_inv2 hs.inv2 x) (St.setOF_spin _ _)
  | setNotation a => exact St.setNotation_inv3 hs a

theorem runOps_inv3 {sp : Atom → K} (ops : List (Op K)) (s : St K) (hs : s.Inv3 sp) (hg : GoodRun ops s) :
    (runOps ops s).Inv3 sp := by
  induction ops generalizing s with
  | nil => exact hs
  | cons o os ih => exact ih _ (step_inv3 o s hs hg.1) hg.2

theorem inv3_empty (m : Mem K) (atoms : List Atom) (sp : Atom → K) (dist : Bond → K) :
    (St.empty m atoms (fun a => some (sp a)) dist).Inv3 sp :=
  ⟨⟨St.inv_empty m atoms _ dist, ⟨fun _ _ h => (by cases h), fun _ _ h => (by cases h)⟩,
    ⟨fun _ _ _ h => (by cases h), fun _ _ _ h => (by cases h), fun _ _ _ h => (by cases h)⟩,
    fun _ _ _ h => (by cases h)⟩, fun _ => rfl⟩

end Magnopy
