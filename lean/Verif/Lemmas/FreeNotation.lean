import Verif.Lemmas.OnSiteFactor

/-!
# Helper lemmas: parts of the notation that do not matter because nothing is stored
-/

set_option autoImplicit false
set_option linter.unusedSectionVars false

namespace Magnopy.St

open PyDict

variable {K : Type*} [Field K]

/-- Another exchange factor. -/
def withEF (z : Option K) (s : St K) : St K := { s with ef := z }

/-- The result with another exchange factor. -/
def resEF (z : Option K) (r : Res (St K)) : Res (St K) := ⟨r.st.withEF z, r.err⟩

variable {z : Option K}

theorem resEF_andThen {r : Res (St K)} {f : St K → Res (St K)} (hf : ∀ t, f (t.withEF z) = resEF z (f t)) :
    (resEF z r).andThen f = resEF z (r.andThen f) := by
  unfold Res.andThen
  cases h : r.err with
  | none => simp only [resEF, h]; exact hf r.st
  | some e => simp only [resEF, h]

theorem forEach_withEF {α : Type*} {f : α → St K → Res (St K)} (hf : ∀ a t, f a (t.withEF z) = resEF z (f a t)) (l : List α) (s : St K) :
    forEach l f (s.withEF z) = resEF z (forEach l f s) := by
  induction l generalizing s with
  | nil => rfl
  | cons a l ih =>
    rw [forEach, forEach, hf, resEF_andThen ih]

theorem scaleExch_withEF {c : Bond → St K → Except PyErr K} (hc : ∀ b (t : St K), c b (t.withEF z) = c b t) (s : St K) :
    scaleExch c (s.withEF z) = resEF z (scaleExch c s) := by
  refine forEach_withEF (fun b t => ?_) _ _
  unfold imulBond
  rw [hc]
  show (match t.exch.get? b with | none => _ | some r => _) = _
  cases t.exch.get? b with
  | none => rfl
  | some r =>
    simp only
    cases c b t <;> rfl

theorem scaleSite_withEF {c : Atom → St K → Except PyErr K} (hc : ∀ b (t : St K), c b (t.withEF z) = c b t) (s : St K) :
    scaleSite c (s.withEF z) = resEF z (scaleSite c s) := by
  refine forEach_withEF (fun b t => ?_) _ _
  unfold imulSite
  rw [hc]
  show (match t.onSite.get? b with | none => _ | some r => _) = _
  cases t.onSite.get? b with
  | none => rfl
  | some r =>
    simp only
    cases c b t <;> rfl

theorem setSN_withEF (b : Bool) (s : St K) : (s.withEF z).setSN b = resEF z (s.setSN b) := by
  unfold setSN
  have h2 : (s.withEF z).sn = s.sn := rfl
  simp only [h2]
  rw [scaleExch_withEF (fun _ _ => rfl), scaleExch_withEF (fun _ _ => rfl), resEF_andThen (fun t => scaleSite_withEF (fun _ _ => rfl) t),
    resEF_andThen (fun t => scaleSite_withEF (fun _ _ => rfl) t)]
  have h3 : ∀ r : Res (St K), (resEF z r).andThen (fun t => Res.ok { t with sn := some b }) = resEF z (r.andThen fun t => .ok { t with sn := some b }) :=
    fun r => resEF_andThen (fun t => rfl)
  split_ifs <;> first | exact h3 _ | rfl

theorem scaleExch_nil {s : St K} (h : s.exch = []) (c : Bond → St K → Except PyErr K) : scaleExch c s = .ok s := by
  rw [scaleExch, h]; rfl

theorem scaleSite_nil {s : St K} (h : s.onSite = []) (c : Atom → St K → Except PyErr K) : scaleSite c s = .ok s := by
  rw [scaleSite, h]; rfl

/-- Without bonds only the flag is set. -/
theorem setDC_nil {s : St K} (h : s.exch = []) (b : Bool) : s.setDC b = .ok { s with dc := some b } := by
  have h1 : ∀ c, scaleExch c ({ s with dc := some b } : St K) = .ok { s with dc := some b } := fun c => scaleExch_nil (s := { s with dc := some b }) h c
  have h2 : ({ s with dc := some b } : St K).ensureDC = .ok { s with dc := some b } := by
    unfold ensureDC
    rw [show ({ s with dc := some b } : St K).exch = [] from h]
    rfl
  have h3 : ({ s with dc := some b } : St K).ensureNoDC = .ok { s with dc := some b } := by
    unfold ensureNoDC
    rw [show ({ s with dc := some b } : St K).exch = [] from h]
    rfl
  unfold setDC
  simp only [h1]
  cases b <;> simp only [if_true, Bool.false_eq_true, if_false] <;> split_ifs <;> simp only [Res.andThen, Res.ok, h2, h3]

/-- Without bonds only the factor is set. -/
theorem setEF_nil [DecidableEq K] {s : St K} (h : s.exch = []) (x : K) : s.setEF x = .ok { s with ef := some x } := by
  unfold setEF
  simp only [scaleExch_nil h]
  cases s.ef with
  | none => rfl
  | some y => simp only; split_ifs <;> rfl

theorem setOF_nil [DecidableEq K] {s : St K} (h : s.onSite = []) (x : K) : s.setOF x = .ok { s with osf := some x } := by
  unfold setOF
  simp only [scaleSite_nil h]
  cases s.osf with
  | none => rfl
  | some y => simp only; split_ifs <;> rfl

theorem setSN_nil {s : St K} (h : s.exch = []) (h' : s.onSite = []) (b : Bool) : s.setSN b = .ok { s with sn := some b } := by
  unfold setSN
  simp only [scaleExch_nil h]
  simp only [Res.andThen, Res.ok, scaleSite_nil h']
  split_ifs <;> rfl

theorem setSN_exch (s : St K) (new : Bool) : (s.setSN new).st.exch = s.exch := by
  have h1 : ∀ c (t : St K), (scaleExch c t).st.exch = t.exch := fun c t => (congrArg Ham.exch (scaleExch_toHam c t).1 :)
  have h2 : ∀ c (t : St K), (scaleSite c t).st.exch = t.exch := fun c t => (congrArg Ham.exch (scaleSite_toHam c t).1 :)
  unfold setSN
  refine Res.andThen_inv (P := fun t : St K => t.exch = s.exch) ?_ (fun t ht => ht)
  split_ifs
  · exact Res.andThen_inv (P := fun t : St K => t.exch = s.exch) (h1 _ _) (fun t ht => (h2 _ _).trans ht)
  · exact Res.andThen_inv (P := fun t : St K => t.exch = s.exch) (h1 _ _) (fun t ht => (h2 _ _).trans ht)
  · rfl

/-- A notation is assigned to a Hamiltonian without bonds in the same way whatever its flag of double counting and its exchange
factor were. -/
theorem setFour_noBonds [DecidableEq K] (d n : Bool) (e o : K) (s : St K) (h : s.exch = []) (x : Option Bool) (y : Option K) :
    (({ s with dc := x, ef := y } : St K).setFour d n e o).err = (s.setFour d n e o).err ∧
      ((s.setFour d n e o).err = none → ({ s with dc := x, ef := y } : St K).setFour d n e o = s.setFour d n e o) := by
  unfold setFour
  rw [setDC_nil (s := { s with dc := x, ef := y }) h, setDC_nil h]
  have e1 : ({ s with dc := some d, ef := y } : St K) = ({ s with dc := some d } : St K).withEF y := rfl
  show (((({ s with dc := some d, ef := y } : St K).setSN n).andThen (setEF e)).andThen (setOF o)).err =
    (((({ s with dc := some d } : St K).setSN n).andThen (setEF e)).andThen (setOF o)).err ∧
    ((((({ s with dc := some d } : St K).setSN n).andThen (setEF e)).andThen (setOF o)).err = none →
      ((({ s with dc := some d, ef := y } : St K).setSN n).andThen (setEF e)).andThen (setOF o) =
        ((({ s with dc := some d } : St K).setSN n).andThen (setEF e)).andThen (setOF o))
  rw [e1, setSN_withEF]
  have ho : (({ s with dc := some d } : St K).setSN n).st.exch = [] := (setSN_exch _ n).trans h
  set r := ({ s with dc := some d } : St K).setSN n with hr
  cases he : r.err with
  | some x' => simp [Res.andThen, resEF, he]
  | none =>
    have : (resEF y r).andThen (setEF e) = r.andThen (setEF e) := by
      simp only [Res.andThen, resEF, he, setEF_nil ho, setEF_nil (s := r.st.withEF y) ho]
      rfl
    rw [this]
    exact ⟨rfl, fun _ => rfl⟩

/-- What the notation says about kinds of parameters that are not there does not matter for the assignment of another one. -/
theorem setFour_free [DecidableEq K] (d n : Bool) (e o : K) (s : St K) (x : Option Bool) (m : Option Bool) (y z : Option K)
    (h1 : s.exch ≠ [] → x = s.dc ∧ y = s.ef) (h2 : s.exch ≠ [] ∨ s.onSite ≠ [] → m = s.sn) (h3 : s.onSite ≠ [] → z = s.osf) :
    (({ s with dc := x, sn := m, ef := y, osf := z } : St K).setFour d n e o).err = (s.setFour d n e o).err ∧
      ((s.setFour d n e o).err = none → ({ s with dc := x, sn := m, ef := y, osf := z } : St K).setFour d n e o = s.setFour d n e o) := by
  by_cases hE : s.exch = [] <;> by_cases hO : s.onSite = []
  · have key : ∀ u : St K, u.exch = [] → u.onSite = [] → u.setFour d n e o =
        .ok { u with dc := some d, sn := some n, ef := some e, osf := some o } := by
      intro u hu hu'
      unfold setFour
      rw [setDC_nil hu]
      show ((({ u with dc := some d } : St K).setSN n).andThen (setEF e)).andThen (setOF o) = _
      rw [setSN_nil (s := { u with dc := some d }) hu hu']
      show (({ u with dc := some d, sn := some n } : St K).setEF e).andThen (setOF o) = _
      rw [setEF_nil (s := { u with dc := some d, sn := some n }) hu]
      exact setOF_nil (s := { u with dc := some d, sn := some n, ef := some e }) hu' o
    rw [key s hE hO, key { s with dc := x, sn := m, ef := y, osf := z } hE hO]
    exact ⟨rfl, fun _ => rfl⟩
  · obtain rfl := h2 (Or.inr hO)
    obtain rfl := h3 hO
    exact setFour_noBonds d n e o s hE x y
  · obtain ⟨rfl, rfl⟩ := h1 hE
    obtain rfl := h2 (Or.inl hE)
    exact setFour_withOF (z := z) d n e o s hO
  · obtain ⟨rfl, rfl⟩ := h1 hE
    obtain rfl := h2 (Or.inl hE)
    obtain rfl := h3 hO
    exact ⟨rfl, fun _ => rfl⟩

end Magnopy.St
