import Verif.Lemmas.HamHist
import Verif.Lemmas.EnergyInit
import Verif.Model.Magnon

/-!
# Lemmas: the on-site factor of a Hamiltonian without on-site parameters
-/

set_option autoImplicit false
set_option linter.unusedSectionVars false

namespace Magnopy.St

open PyDict

variable {K : Type*} [Field K]

/-! ### What the setters leave alone -/

theorem scaleExch_onSite (c : Bond → St K → Except PyErr K) (s : St K) : (scaleExch c s).st.onSite = s.onSite :=
  (congrArg Ham.onSite (scaleExch_toHam c s).1 :)

theorem addExchange_onSite (s : St K) (x y : AtomArg) (R : Cell) (p : ParamArg K) :
    (s.addExchange x y R p).st.onSite = s.onSite := by
  unfold addExchange
  cases h1 : s.findOrAdd x with
  | error e => rfl
  | ok q =>
    obtain ⟨s1, a⟩ := q
    obtain ⟨_, l, rfl⟩ := findOrAdd_spec h1
    cases h2 : ({ s with atoms := s.atoms ++ l } : St K).findOrAdd y with
    | error e => simp only [h2]; rfl
    | ok q =>
      obtain ⟨s2, b⟩ := q
      obtain ⟨_, l', rfl⟩ := findOrAdd_spec h2
      simp only [h2]
      refine (putBond_frame _ _ _).2.1.trans ?_
      exact (congrArg Ham.onSite (resolve_toHam _ p) :)

theorem dropBond_onSite (s : St K) (b : Bond) (f : Bool) : (s.dropBond b f).st.onSite = s.onSite :=
  (congrArg Ham.onSite (dropBond_frame s b f).2 :)

theorem removeExchange_onSite (s : St K) (x y : AtomArg) (R : Cell) (f : Bool) :
    (s.removeExchange x y R f).st.onSite = s.onSite := by
  unfold removeExchange
  cases s.find x with
  | error e => rfl
  | ok a =>
    cases s.find y with
    | error e => rfl
    | ok b => exact dropBond_onSite _ _ _

theorem scaleSite_onSite (c : Atom → St K → Except PyErr K) (s : St K) : (scaleSite c s).st.onSite = s.onSite :=
  (congrArg Ham.onSite (scaleSite_toHam c s).1 :)

theorem setDC_onSite (s : St K) (new : Bool) : (s.setDC new).st.onSite = s.onSite := by
  unfold setDC
  refine Res.andThen_inv (P := fun t : St K => t.onSite = s.onSite) ?_ (fun t ht => ?_)
  · split_ifs
    · exact scaleExch_onSite _ _
    · exact scaleExch_onSite _ _
    · rfl
  · split_ifs
    · unfold ensureDC
      refine forEach_inv (P := fun t : St K => t.onSite = s.onSite)
        (fun p u hu => (addExchange_onSite u _ _ _ _).trans hu) _ _ ?_
      exact (congrArg Ham.onSite (collectMirrors_spec t.exch t).1 :).trans ht
    · unfold ensureNoDC
      split
      · exact ht
      · exact forEach_inv (P := fun t : St K => t.onSite = s.onSite)
          (fun p u hu => (removeExchange_onSite u _ _ _ _).trans hu) _ _ ht

theorem setSN_onSite (s : St K) (new : Bool) : (s.setSN new).st.onSite = s.onSite := by
  unfold setSN
  refine Res.andThen_inv (P := fun t : St K => t.onSite = s.onSite) ?_ (fun t ht => ht)
  split_ifs
  · exact Res.andThen_inv (P := fun t : St K => t.onSite = s.onSite) (scaleExch_onSite _ _)
      (fun t ht => (scaleSite_onSite _ _).trans ht)
  · exact Res.andThen_inv (P := fun t : St K => t.onSite = s.onSite) (scaleExch_onSite _ _)
      (fun t ht => (scaleSite_onSite _ _).trans ht)
  · rfl

theorem setEF_onSite [DecidableEq K] (s : St K) (x : K) : (s.setEF x).st.onSite = s.onSite := by
  unfold setEF
  refine Res.andThen_inv (P := fun t : St K => t.onSite = s.onSite) ?_ (fun t ht => ht)
  split
  · split_ifs
    · exact scaleExch_onSite _ _
    · rfl
  · rfl

theorem scaleExch_osf (c : Bond → St K → Except PyErr K) (s : St K) : (scaleExch c s).st.osf = s.osf :=
  (congrArg Ham.osf (scaleExch_toHam c s).1 :)

theorem addExchange_osf (s : St K) (x y : AtomArg) (R : Cell) (p : ParamArg K) :
    (s.addExchange x y R p).st.osf = s.osf := by
  unfold addExchange
  cases h1 : s.findOrAdd x with
  | error e => rfl
  | ok q =>
    obtain ⟨s1, a⟩ := q
    obtain ⟨_, l, rfl⟩ := findOrAdd_spec h1
    cases h2 : ({ s with atoms := s.atoms ++ l } : St K).findOrAdd y with
    | error e => simp only [h2]; rfl
    | ok q =>
      obtain ⟨s2, b⟩ := q
      obtain ⟨_, l', rfl⟩ := findOrAdd_spec h2
      simp only [h2]
      refine (putBond_frame _ _ _).2.2.2.2.2.1.trans ?_
      exact (congrArg Ham.osf (resolve_toHam _ p) :)

theorem dropBond_osf (s : St K) (b : Bond) (f : Bool) : (s.dropBond b f).st.osf = s.osf :=
  (congrArg Ham.osf (dropBond_frame s b f).2 :)

theorem removeExchange_osf (s : St K) (x y : AtomArg) (R : Cell) (f : Bool) :
    (s.removeExchange x y R f).st.osf = s.osf := by
  unfold removeExchange
  cases s.find x with
  | error e => rfl
  | ok a =>
    cases s.find y with
    | error e => rfl
    | ok b => exact dropBond_osf _ _ _

theorem scaleSite_osf (c : Atom → St K → Except PyErr K) (s : St K) : (scaleSite c s).st.osf = s.osf :=
  (congrArg Ham.osf (scaleSite_toHam c s).1 :)

theorem setDC_osf (s : St K) (new : Bool) : (s.setDC new).st.osf = s.osf := by
  unfold setDC
  refine Res.andThen_inv (P := fun t : St K => t.osf = s.osf) ?_ (fun t ht => ?_)
  · split_ifs
    · exact scaleExch_osf _ _
    · exact scaleExch_osf _ _
    · rfl
  · split_ifs
    · unfold ensureDC
      refine forEach_inv (P := fun t : St K => t.osf = s.osf)
        (fun p u hu => (addExchange_osf u _ _ _ _).trans hu) _ _ ?_
      exact (congrArg Ham.osf (collectMirrors_spec t.exch t).1 :).trans ht
    · unfold ensureNoDC
      split
      · exact ht
      · exact forEach_inv (P := fun t : St K => t.osf = s.osf)
          (fun p u hu => (removeExchange_osf u _ _ _ _).trans hu) _ _ ht

theorem setSN_osf (s : St K) (new : Bool) : (s.setSN new).st.osf = s.osf := by
  unfold setSN
  refine Res.andThen_inv (P := fun t : St K => t.osf = s.osf) ?_ (fun t ht => ht)
  split_ifs
  · exact Res.andThen_inv (P := fun t : St K => t.osf = s.osf) (scaleExch_osf _ _)
      (fun t ht => (scaleSite_osf _ _).trans ht)
  · exact Res.andThen_inv (P := fun t : St K => t.osf = s.osf) (scaleExch_osf _ _)
      (fun t ht => (scaleSite_osf _ _).trans ht)
  · rfl

theorem setEF_osf [DecidableEq K] (s : St K) (x : K) : (s.setEF x).st.osf = s.osf := by
  unfold setEF
  refine Res.andThen_inv (P := fun t : St K => t.osf = s.osf) ?_ (fun t ht => ht)
  split
  · split_ifs
    · exact scaleExch_osf _ _
    · rfl
  · rfl

theorem scaleExch_dc (c : Bond → St K → Except PyErr K) (s : St K) : (scaleExch c s).st.dc = s.dc :=
  (congrArg Ham.dc (scaleExch_toHam c s).1 :)

theorem addExchange_dc (s : St K) (x y : AtomArg) (R : Cell) (p : ParamArg K) :
    (s.addExchange x y R p).st.dc = s.dc := by
  unfold addExchange
  cases h1 : s.findOrAdd x with
  | error e => rfl
  | ok q =>
    obtain ⟨s1, a⟩ := q
    obtain ⟨_, l, rfl⟩ := findOrAdd_spec h1
    cases h2 : ({ s with atoms := s.atoms ++ l } : St K).findOrAdd y with
    | error e => simp only [h2]; rfl
    | ok q =>
      obtain ⟨s2, b⟩ := q
      obtain ⟨_, l', rfl⟩ := findOrAdd_spec h2
      simp only [h2]
      refine (putBond_frame _ _ _).2.2.1.trans ?_
      exact (congrArg Ham.dc (resolve_toHam _ p) :)

theorem dropBond_dc (s : St K) (b : Bond) (f : Bool) : (s.dropBond b f).st.dc = s.dc :=
  (congrArg Ham.dc (dropBond_frame s b f).2 :)

theorem removeExchange_dc (s : St K) (x y : AtomArg) (R : Cell) (f : Bool) :
    (s.removeExchange x y R f).st.dc = s.dc := by
  unfold removeExchange
  cases s.find x with
  | error e => rfl
  | ok a =>
    cases s.find y with
    | error e => rfl
    | ok b => exact dropBond_dc _ _ _

theorem setDC_dc (s : St K) (new : Bool) : (s.setDC new).st.dc = some new := by
  unfold setDC
  refine Res.andThen_inv (P := fun t : St K => t.dc = some new) ?_ (fun t ht => ?_)
  · split_ifs
    · exact scaleExch_dc _ _
    · exact scaleExch_dc _ _
    · rfl
  · split_ifs
    · unfold ensureDC
      refine forEach_inv (P := fun t : St K => t.dc = some new)
        (fun p u hu => (addExchange_dc u _ _ _ _).trans hu) _ _ ?_
      exact (congrArg Ham.dc (collectMirrors_spec t.exch t).1 :).trans ht
    · unfold ensureNoDC
      split
      · exact ht
      · exact forEach_inv (P := fun t : St K => t.dc = some new)
          (fun p u hu => (removeExchange_dc u _ _ _ _).trans hu) _ _ ht

/-! ### Another on-site factor -/

/-- Another on-site factor. -/
def withOF (z : Option K) (s : St K) : St K := { s with osf := z }

/-- The result with another on-site factor. -/
def resOF (z : Option K) (r : Res (St K)) : Res (St K) := ⟨r.st.withOF z, r.err⟩

variable {z : Option K}

theorem resOF_andThen {r : Res (St K)} {f : St K → Res (St K)} (hf : ∀ t, f (t.withOF z) = resOF z (f t)) :
    (resOF z r).andThen f = resOF z (r.andThen f) := by
  unfold Res.andThen
  cases h : r.err with
  | none => simp only [resOF, h]; exact hf r.st
  | some e => simp only [resOF, h]

theorem forEach_withOF {α : Type*} {f : α → St K → Res (St K)} (hf : ∀ a t, f a (t.withOF z) = resOF z (f a t)) (l : List α) (s : St K) :
    forEach l f (s.withOF z) = resOF z (forEach l f s) := by
  induction l generalizing s with
  | nil => rfl
  | cons a l ih =>
    rw [forEach, forEach, hf, resOF_andThen ih]

theorem scaleExch_withOF {c : Bond → St K → Except PyErr K} (hc : ∀ b (t : St K), c b (t.withOF z) = c b t) (s : St K) :
    scaleExch c (s.withOF z) = resOF z (scaleExch c s) := by
  refine forEach_withOF (fun b t => ?_) _ _
  unfold imulBond
  rw [hc]
  show (match t.exch.get? b with | none => _ | some r => _) = _
  cases t.exch.get? b with
  | none => rfl
  | some r =>
    simp only
    cases c b t <;> rfl

theorem scaleSite_withOF {c : Atom → St K → Except PyErr K} (hc : ∀ b (t : St K), c b (t.withOF z) = c b t) (s : St K) :
    scaleSite c (s.withOF z) = resOF z (scaleSite c s) := by
  refine forEach_withOF (fun b t => ?_) _ _
  unfold imulSite
  rw [hc]
  show (match t.onSite.get? b with | none => _ | some r => _) = _
  cases t.onSite.get? b with
  | none => rfl
  | some r =>
    simp only
    cases c b t <;> rfl

theorem collectMirrors_withOF (d : PyDict Bond ℕ) (s : St K) :
    collectMirrors d (s.withOF z) = ((collectMirrors d s).1.withOF z, (collectMirrors d s).2) := by
  induction d generalizing s with
  | nil => rfl
  | cons p d ih =>
    obtain ⟨b, r⟩ := p
    simp only [collectMirrors]
    have : (s.withOF z).alloc (Param.T ((s.withOF z).cell r)) = ((s.alloc (Param.T (s.cell r))).1.withOF z, (s.alloc (Param.T (s.cell r))).2) := rfl
    rw [this]
    simp only [ih]

theorem putBond_withOF (b : Bond) (r : ℕ) (s : St K) : (s.withOF z).putBond b r = (s.putBond b r).withOF z := by
  by_cases h : s.dc = some true ∧ (s.exch.set b r).get? b.mirror = none
  · have h' : (s.withOF z).dc = some true ∧ ((s.withOF z).exch.set b r).get? b.mirror = none := h
    rw [putBond, putBond]
    simp only [if_pos h, if_pos h']
    rfl
  · have h' : ¬ ((s.withOF z).dc = some true ∧ ((s.withOF z).exch.set b r).get? b.mirror = none) := h
    rw [putBond, putBond]
    simp only [if_neg h, if_neg h']
    rfl

theorem findOrAdd_atom_withOF (a : Atom) (s : St K) : (s.withOF z).findOrAdd (.atom a) =
    .ok ((if a ∈ s.atoms then s else { s with atoms := s.atoms ++ [a] }).withOF z, a) := by
  unfold findOrAdd
  simp only
  by_cases h : a ∈ s.atoms
  · have h' : a ∈ (s.withOF z).atoms := h
    rw [if_pos h, if_pos h']
  · have h' : a ∉ (s.withOF z).atoms := h
    rw [if_neg h, if_neg h']
    rfl

theorem addExchange_withOF (a b : Atom) (R : Cell) (r : ℕ) (s : St K) :
    (s.withOF z).addExchange (.atom a) (.atom b) R (.obj r) = resOF z (s.addExchange (.atom a) (.atom b) R (.obj r)) := by
  unfold addExchange
  rw [findOrAdd_atom_withOF]
  simp only [findOrAdd_atom_withOF, resolve, putBond_withOF]
  rfl

theorem dropBond_withOF (b : Bond) (x : Bool) (s : St K) : (s.withOF z).dropBond b x = resOF z (s.dropBond b x) := by
  unfold dropBond
  have h1 : (s.withOF z).exch = s.exch := rfl
  have h2 : (s.withOF z).dc = s.dc := rfl
  simp only [h1, h2]
  split_ifs <;> rfl

theorem collectRemovals_withOF (l : List Bond) (s : St K) : (s.withOF z).collectRemovals l = s.collectRemovals l := by
  induction l with
  | nil => rfl
  | cons b l ih =>
    rw [collectRemovals, collectRemovals, ih]
    rfl

theorem ensureDC_withOF (s : St K) : (s.withOF z).ensureDC = resOF z s.ensureDC := by
  unfold ensureDC
  have : (s.withOF z).exch = s.exch := rfl
  rw [this, collectMirrors_withOF]
  exact forEach_withOF (fun p t => addExchange_withOF _ _ _ _ _) _ _

theorem ensureNoDC_withOF (s : St K) : (s.withOF z).ensureNoDC = resOF z s.ensureNoDC := by
  unfold ensureNoDC
  rw [collectRemovals_withOF]
  show (match s.collectRemovals s.exch.keys with | .error e => _ | .ok l => _) = _
  cases s.collectRemovals s.exch.keys with
  | error e => rfl
  | ok l => exact forEach_withOF (fun p t => dropBond_withOF _ _ _) _ _

theorem setDC_withOF (b : Bool) (s : St K) : (s.withOF z).setDC b = resOF z (s.setDC b) := by
  unfold setDC
  have h1 : ({ s.withOF z with dc := some b } : St K) = ({ s with dc := some b } : St K).withOF z := rfl
  have h2 : (s.withOF z).dc = s.dc := rfl
  have h0 : ∀ (x : K) (t : St K), scaleExch (fun _ _ => .ok x) (t.withOF z) = resOF z (scaleExch (fun _ _ => .ok x) t) := fun x t =>
    scaleExch_withOF (fun _ _ => rfl) t
  simp only [h1, h2, h0]
  have h3 : ∀ t : St K, (if b = true then ensureDC else ensureNoDC) (t.withOF z) = resOF z ((if b = true then ensureDC else ensureNoDC) t) := by
    intro t
    cases b
    · exact ensureNoDC_withOF t
    · exact ensureDC_withOF t
  split_ifs at h3 ⊢ <;> first | exact resOF_andThen h3 | exact h3 _

theorem setSN_withOF (b : Bool) (s : St K) : (s.withOF z).setSN b = resOF z (s.setSN b) := by
  unfold setSN
  have h2 : (s.withOF z).sn = s.sn := rfl
  simp only [h2]
  rw [scaleExch_withOF (fun _ _ => rfl), scaleExch_withOF (fun _ _ => rfl), resOF_andThen (fun t => scaleSite_withOF (fun _ _ => rfl) t),
    resOF_andThen (fun t => scaleSite_withOF (fun _ _ => rfl) t)]
  have h3 : ∀ r : Res (St K), (resOF z r).andThen (fun t => Res.ok { t with sn := some b }) = resOF z (r.andThen fun t => .ok { t with sn := some b }) :=
    fun r => resOF_andThen (fun t => rfl)
  split_ifs <;> first | exact h3 _ | rfl

theorem setEF_withOF [DecidableEq K] (x : K) (s : St K) : (s.withOF z).setEF x = resOF z (s.setEF x) := by
  unfold setEF
  have h2 : (s.withOF z).ef = s.ef := rfl
  simp only [h2]
  have h3 : ∀ r : Res (St K), (resOF z r).andThen (fun t => Res.ok { t with ef := some x }) = resOF z (r.andThen fun t => .ok { t with ef := some x }) :=
    fun r => resOF_andThen (fun t => rfl)
  cases s.ef with
  | none => rfl
  | some y =>
    have h0 : ∀ t : St K, scaleExch (fun _ _ => ratio y x) (t.withOF z) = resOF z (scaleExch (fun _ _ => ratio y x) t) := fun t =>
      scaleExch_withOF (fun _ _ => rfl) t
    simp only [h0]
    split_ifs
    · exact h3 _
    · rfl

theorem setOF_withOF [DecidableEq K] (x : K) (s : St K) (h : s.onSite = []) : (s.withOF z).setOF x = .ok (s.withOF (some x)) := by
  unfold setOF
  have h1 : ∀ c, scaleSite c (s.withOF z) = .ok (s.withOF z) := by
    intro c
    rw [scaleSite]
    show forEach (keys s.onSite) _ _ = _
    rw [h]; rfl
  cases (s.withOF z).osf with
  | none => rfl
  | some y =>
    simp only [h1]
    split_ifs <;> rfl

theorem onSite_nil_keys {s : St K} (h : s.onSite = []) : s.onSite.keys = [] := by rw [h]; rfl

/-- A notation is assigned to a Hamiltonian without on-site parameters in the same way whatever its on-site factor was. -/
theorem setFour_withOF [DecidableEq K] (d n : Bool) (e o : K) (s : St K) (h : s.onSite = []) :
    ((s.withOF z).setFour d n e o).err = (s.setFour d n e o).err ∧
      ((s.setFour d n e o).err = none → (s.withOF z).setFour d n e o = s.setFour d n e o) := by
  have hr : ∀ z, (((s.withOF z).setDC d).andThen (setSN n)).andThen (setEF e) =
      resOF z (((s.setDC d).andThen (setSN n)).andThen (setEF e)) := by
    intro z
    rw [setDC_withOF, resOF_andThen (setSN_withOF n), resOF_andThen (setEF_withOF e)]
  unfold setFour
  rw [hr]
  set r := ((s.setDC d).andThen (setSN n)).andThen (setEF e) with hrr
  have ho : r.st.onSite = [] := by
    refine Res.andThen_inv (P := fun t : St K => t.onSite = []) (Res.andThen_inv (P := fun t : St K => t.onSite = []) ?_ ?_) ?_
    · exact (setDC_onSite s d).trans h
    · exact fun t ht => (setSN_onSite t n).trans ht
    · exact fun t ht => (setEF_onSite t e).trans ht
  cases he : r.err with
  | some x => simp [Res.andThen, resOF, he]
  | none =>
    have h0 := setOF_withOF (z := r.st.osf) o r.st ho
    have h1 : r.st.withOF r.st.osf = r.st := rfl
    rw [h1] at h0
    simp only [Res.andThen, resOF, he, setOF_withOF o r.st ho, h0]
    exact ⟨trivial, fun _ => trivial⟩

end Magnopy.St
