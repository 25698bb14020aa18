import Verif.Spec.Avoid
import Verif.Lemmas.Ham

/-!
# Helper lemmas: objects that do not belong to the Hamiltonian stay as they are
-/

set_option autoImplicit false

set_option linter.unusedSectionVars false

namespace Magnopy

open PyDict

section Dict

variable {α β : Type*} [DecidableEq α]

theorem PyDict.mem_set {d : PyDict α β} {k : α} {v : β} {p : α × β} (h : p ∈ d.set k v) : p ∈ d ∨ p.2 = v := by
  induction d with
  | nil => simp [PyDict.set] at h; right; rw [h]
  | cons q d ih =>
    obtain ⟨a, b⟩ := q
    by_cases ha : a = k
    · simp only [PyDict.set, ha, if_true, List.mem_cons] at h
      rcases h with rfl | h
      · exact Or.inr rfl
      · exact Or.inl (List.mem_cons_of_mem _ h)
    · simp only [PyDict.set, ha, if_false, List.mem_cons] at h
      rcases h with rfl | h
      · exact Or.inl List.mem_cons_self
      · exact (ih h).imp (fun h => List.mem_cons_of_mem _ h) id

end Dict

namespace St

variable {K : Type*} [Field K]

/-- The objects of `X` exist, are not stored in the Hamiltonian, and hold the matrices `c`.  If `Q`, the
objects that are stored in the Hamiltonian exist. -/
structure Off (Q : Prop) (X : ℕ → Prop) (c : ℕ → M3 K) (s : St K) : Prop where
  lt : ∀ x, X x → x < s.next
  exch : ∀ p ∈ s.exch, ¬ X p.2 ∧ (Q → p.2 < s.next)
  site : ∀ p ∈ s.onSite, ¬ X p.2 ∧ (Q → p.2 < s.next)
  cell : ∀ x, X x → s.cell x = c x

namespace Off

variable {Q : Prop} {X : ℕ → Prop} {c : ℕ → M3 K} {s : St K}

theorem congr (h : s.Off Q X c) {t : St K} (hn : s.next ≤ t.next)
    (he : ∀ p ∈ t.exch, p ∈ s.exch ∨ (¬ X p.2 ∧ (Q → p.2 < t.next)))
    (ho : ∀ p ∈ t.onSite, p ∈ s.onSite ∨ (¬ X p.2 ∧ (Q → p.2 < t.next))) (hc : ∀ x, X x → t.cell x = s.cell x) :
    t.Off Q X c where
  lt x hx := lt_of_lt_of_le (h.lt x hx) hn
  exch p hp := (he p hp).elim (fun hp => ⟨(h.exch p hp).1, fun q => lt_of_lt_of_le ((h.exch p hp).2 q) hn⟩) id
  site p hp := (ho p hp).elim (fun hp => ⟨(h.site p hp).1, fun q => lt_of_lt_of_le ((h.site p hp).2 q) hn⟩) id
  cell x hx := (hc x hx).trans (h.cell x hx)

theorem write (h : s.Off Q X c) {r : ℕ} (hr : ¬ X r) (m : M3 K) : (s.write r m).Off Q X c :=
  h.congr (le_refl _) (fun _ hp => Or.inl hp) (fun _ hp => Or.inl hp) fun x hx => by
    have : x ≠ r := fun e => hr (e ▸ hx)
    simp [St.write, this]

theorem alloc (h : s.Off Q X c) (m : M3 K) :
    (s.alloc m).1.Off Q X c ∧ ¬ X (s.alloc m).2 ∧ (Q → (s.alloc m).2 < (s.alloc m).1.next) :=
  ⟨h.congr (Nat.le_succ _) (fun _ hp => Or.inl hp) (fun _ hp => Or.inl hp) fun x hx => by
    have : x ≠ s.next := fun e => absurd (h.lt x hx) (by omega)
    simp [St.alloc, this], fun hx => absurd (h.lt _ hx) (lt_irrefl s.next), fun _ => Nat.lt_succ_self s.next⟩

theorem resolve (h : s.Off Q X c) (p : ParamArg K) (hp : ∀ r ∈ p.refs, ¬ X r ∧ (Q → r < s.next)) :
    (s.resolve p).1.Off Q X c ∧ ¬ X (s.resolve p).2 ∧ (Q → (s.resolve p).2 < (s.resolve p).1.next) := by
  cases p with
  | obj r => exact ⟨h, hp r (by simp [ParamArg.refs])⟩
  | fresh m => exact h.alloc m

theorem setExch (h : s.Off Q X c) (b : Bond) {r : ℕ} (hr : ¬ X r ∧ (Q → r < s.next)) :
    ({ s with exch := s.exch.set b r } : St K).Off Q X c :=
  h.congr (le_refl _) (fun p hp => (PyDict.mem_set hp).imp id fun e => by rw [e]; exact hr) (fun _ hp => Or.inl hp)
    fun _ _ => rfl

theorem setSite (h : s.Off Q X c) (a : Atom) {r : ℕ} (hr : ¬ X r ∧ (Q → r < s.next)) :
    ({ s with onSite := s.onSite.set a r } : St K).Off Q X c :=
  h.congr (le_refl _) (fun _ hp => Or.inl hp) (fun p hp => (PyDict.mem_set hp).imp id fun e => by rw [e]; exact hr)
    fun _ _ => rfl

theorem delExch (h : s.Off Q X c) (b : Bond) : ({ s with exch := s.exch.del b } : St K).Off Q X c :=
  h.congr (le_refl _) (fun _ hp => Or.inl ((PyDict.del_sublist _ _).subset hp)) (fun _ hp => Or.inl hp) fun _ _ => rfl

theorem delSite (h : s.Off Q X c) (a : Atom) : ({ s with onSite := s.onSite.del a } : St K).Off Q X c :=
  h.congr (le_refl _) (fun _ hp => Or.inl hp) (fun _ hp => Or.inl ((PyDict.del_sublist _ _).subset hp)) fun _ _ => rfl

theorem setAtoms (h : s.Off Q X c) (l : List Atom) : ({ s with atoms := l } : St K).Off Q X c := ⟨h.lt, h.exch, h.site, h.cell⟩

theorem findOrAdd (h : s.Off Q X c) {x : AtomArg} {t : St K} {a : Atom} (ht : s.findOrAdd x = .ok (t, a)) :
    t.Off Q X c ∧ t.next = s.next := by
  cases x with
  | atom b =>
    simp only [St.findOrAdd, Except.ok.injEq, Prod.mk.injEq] at ht
    rw [← ht.1]
    split_ifs
    · exact ⟨h, rfl⟩
    · exact ⟨h.setAtoms _, rfl⟩
  | name n =>
    simp only [St.findOrAdd] at ht
    cases hg : s.getAtom n with
    | error e => rw [hg] at ht; cases ht
    | ok b => rw [hg] at ht; cases ht; exact ⟨h, rfl⟩

theorem putBond (h : s.Off Q X c) (b : Bond) {r : ℕ} (hr : ¬ X r ∧ (Q → r < s.next)) :
    (s.putBond b r).Off Q X c ∧ s.next ≤ (s.putBond b r).next := by
  have h1 := h.setExch b hr
  unfold St.putBond
  dsimp only
  split_ifs
  · have h2 := h1.alloc (Param.T (s.cell r))
    exact ⟨h2.1.setExch b.mirror h2.2, Nat.le_succ _⟩
  · exact ⟨h1, le_refl _⟩

theorem resolve_next (s : St K) (p : ParamArg K) : s.next ≤ (s.resolve p).1.next := by
  cases p with
  | obj r => exact le_refl _
  | fresh m => exact Nat.le_succ _

theorem addExchange' (h : s.Off Q X c) (x y : AtomArg) (R : Cell) (p : ParamArg K)
    (hp : ∀ r ∈ p.refs, ¬ X r ∧ (Q → r < s.next)) :
    (s.addExchange x y R p).st.Off Q X c ∧ s.next ≤ (s.addExchange x y R p).st.next := by
  unfold St.addExchange
  cases hx : s.findOrAdd x with
  | error e => exact ⟨h, le_refl _⟩
  | ok q =>
    obtain ⟨s1, a⟩ := q
    have h1 := h.findOrAdd hx
    cases hy : s1.findOrAdd y with
    | error e => simp only [hy]; exact ⟨h1.1, h1.2.ge⟩
    | ok q =>
      obtain ⟨s2, b⟩ := q
      have h2 := h1.1.findOrAdd hy
      have h3 := h2.1.resolve p (by rw [h2.2, h1.2]; exact hp)
      simp only [hy]
      have h4 := h3.1.putBond (a, b, R) h3.2
      exact ⟨h4.1, by have := h4.2; have := resolve_next s2 p; have := h2.2; have := h1.2; simp only [Res.st_ok]; omega⟩

theorem addExchange (h : s.Off Q X c) (x y : AtomArg) (R : Cell) (p : ParamArg K)
    (hp : ∀ r ∈ p.refs, ¬ X r ∧ (Q → r < s.next)) : (s.addExchange x y R p).st.Off Q X c := (h.addExchange' x y R p hp).1

theorem dropBond (h : s.Off Q X c) (b : Bond) (f : Bool) : (s.dropBond b f).st.Off Q X c := by
  unfold St.dropBond
  dsimp only
  split_ifs
  · exact h
  · exact (h.delExch b).delExch b.mirror
  · exact h.delExch b

theorem removeExchange (h : s.Off Q X c) (x y : AtomArg) (R : Cell) (f : Bool) :
    (s.removeExchange x y R f).st.Off Q X c := by
  unfold St.removeExchange
  cases s.find x with
  | error e => exact h
  | ok a =>
    cases s.find y with
    | error e => exact h
    | ok b => exact h.dropBond _ f

theorem addOnSite (h : s.Off Q X c) (x : AtomArg) (p : ParamArg K) (hp : ∀ r ∈ p.refs, ¬ X r ∧ (Q → r < s.next)) :
    (s.addOnSite x p).st.Off Q X c := by
  unfold St.addOnSite
  cases hx : s.findOrAdd x with
  | error e => exact h
  | ok q =>
    obtain ⟨s1, a⟩ := q
    have h1 := h.findOrAdd hx
    have h2 := h1.1.resolve p (by rw [h1.2]; exact hp)
    exact h2.1.setSite a h2.2

theorem removeOnSite (h : s.Off Q X c) (x : AtomArg) (f : Bool) : (s.removeOnSite x f).st.Off Q X c := by
  cases x with
  | name n =>
    simp only [St.removeOnSite]
    cases s.getAtom n with
    | error e => exact h
    | ok a => cases f <;> exact h
  | atom a =>
    simp only [St.removeOnSite]
    split_ifs
    · exact h
    · exact h
    · exact h.delSite a

theorem delItem (h : s.Off Q X c) (k : Key) : (s.delItem k).st.Off Q X c := by
  cases k with
  | site x => exact h.removeOnSite x true
  | bond x y R => exact h.removeExchange x y R true
  | bad => exact h

theorem delEntry (h : s.Off Q X c) (k : Bond ⊕ Atom) : (St.delEntry k s).st.Off Q X c := by
  cases k with
  | inl b => exact h.delItem _
  | inr a => exact h.delItem _

theorem collectMirrors (d : PyDict Bond ℕ) {s : St K} (h : s.Off Q X c) :
    (St.collectMirrors d s).1.Off Q X c ∧ s.next ≤ (St.collectMirrors d s).1.next ∧
      ∀ p ∈ (St.collectMirrors d s).2, ¬ X p.2 ∧ (Q → p.2 < (St.collectMirrors d s).1.next) := by
  induction d generalizing s with
  | nil => exact ⟨h, le_refl _, by simp [St.collectMirrors]⟩
  | cons q d ih =>
    obtain ⟨b, r⟩ := q
    have h1 := h.alloc (Param.T (s.cell r))
    have h2 := ih h1.1
    simp only [St.collectMirrors]
    refine ⟨h2.1, le_trans (Nat.le_succ _) h2.2.1, fun p hp => ?_⟩
    rcases List.mem_cons.1 hp with rfl | hp
    · exact ⟨h1.2.1, fun q => lt_of_lt_of_le (h1.2.2 q) h2.2.1⟩
    · exact h2.2.2 p hp

/-- A loop whose body keeps the objects for the elements of the list. -/
theorem forEach_mem {α : Type*} {body : α → St K → Res (St K)} (l : List α)
    (hb : ∀ x ∈ l, ∀ t : St K, t.Off Q X c → (body x t).st.Off Q X c) {s : St K} (h : s.Off Q X c) :
    (forEach l body s).st.Off Q X c := by
  induction l generalizing s with
  | nil => exact h
  | cons x l ih =>
    exact Res.andThen_inv (P := fun t : St K => t.Off Q X c) (hb x List.mem_cons_self s h)
      fun t ht => ih (fun y hy => hb y (List.mem_cons_of_mem _ hy)) ht

theorem ensureDC (h : s.Off Q X c) : (St.ensureDC s).st.Off Q X c := by
  unfold St.ensureDC
  have h1 := collectMirrors s.exch h
  generalize St.collectMirrors s.exch s = cm at *
  obtain ⟨s1, l⟩ := cm
  have key : ∀ (l' : List (Bond × ℕ)) (t : St K), (∀ p ∈ l', ¬ X p.2 ∧ (Q → p.2 < s1.next)) → t.Off Q X c →
      s1.next ≤ t.next → (forEach l' (fun (p : Bond × ℕ) (t : St K) =>
        t.addExchange (.atom p.1.1) (.atom p.1.2.1) p.1.2.2 (.obj p.2)) t).st.Off Q X c ∧
      s1.next ≤ (forEach l' (fun (p : Bond × ℕ) (t : St K) =>
        t.addExchange (.atom p.1.1) (.atom p.1.2.1) p.1.2.2 (.obj p.2)) t).st.next := by
    intro l'
    induction l' with
    | nil => exact fun _ _ h h' => ⟨h, h'⟩
    | cons p l' ih =>
      intro t hl ht hn
      have h2 := ht.addExchange' (.atom p.1.1) (.atom p.1.2.1) p.1.2.2 (.obj p.2) fun r hr => by
        simp only [ParamArg.refs, List.mem_singleton] at hr
        subst hr
        have := hl p List.mem_cons_self
        exact ⟨this.1, fun q => lt_of_lt_of_le (this.2 q) hn⟩
      exact Res.andThen_inv (P := fun t : St K => t.Off Q X c ∧ s1.next ≤ t.next) ⟨h2.1, le_trans hn h2.2⟩
        fun t ht => ih t (fun p hp => hl p (List.mem_cons_of_mem _ hp)) ht.1 ht.2
  exact (key l s1 h1.2.2 h1.1 (le_refl _)).1

theorem ensureNoDC (h : s.Off Q X c) : (St.ensureNoDC s).st.Off Q X c := by
  unfold St.ensureNoDC
  cases s.collectRemovals s.exch.keys with
  | error e => exact h
  | ok l => exact forEach_mem l (fun b _ t ht => ht.removeExchange _ _ _ _) h

theorem imulBond (h : s.Off Q X c) (f : Bond → St K → Except PyErr K) (b : Bond) : (St.imulBond f b s).st.Off Q X c := by
  unfold St.imulBond
  cases hb : s.exch.get? b with
  | none => exact h
  | some r =>
    cases f b s with
    | error e => exact h
    | ok x => exact h.write (h.exch _ (mem_of_get? hb)).1 _

theorem imulSite (h : s.Off Q X c) (f : Atom → St K → Except PyErr K) (b : Atom) : (St.imulSite f b s).st.Off Q X c := by
  unfold St.imulSite
  cases hb : s.onSite.get? b with
  | none => exact h
  | some r =>
    cases f b s with
    | error e => exact h
    | ok x => exact h.write (h.site _ (mem_of_get? hb)).1 _

theorem scaleExch (h : s.Off Q X c) (f : Bond → St K → Except PyErr K) : (St.scaleExch f s).st.Off Q X c :=
  forEach_mem _ (fun b _ _ ht => ht.imulBond f b) h

theorem scaleSite (h : s.Off Q X c) (f : Atom → St K → Except PyErr K) : (St.scaleSite f s).st.Off Q X c :=
  forEach_mem _ (fun b _ _ ht => ht.imulSite f b) h

/-- Changing the notation attributes does not matter. -/
theorem attrs (h : s.Off Q X c) (d n : Option Bool) (e o : Option K) :
    ({ s with dc := d, sn := n, ef := e, osf := o } : St K).Off Q X c := ⟨h.lt, h.exch, h.site, h.cell⟩

theorem setDC (h : s.Off Q X c) (new : Bool) : (s.setDC new).st.Off Q X c := by
  have h1 : ({ s with dc := some new } : St K).Off Q X c := h.attrs _ _ _ _
  unfold St.setDC
  dsimp only
  refine Res.andThen_inv (P := fun t : St K => t.Off Q X c) ?_ fun t ht => ?_
  · split_ifs
    · exact h1.scaleExch _
    · exact h1.scaleExch _
    · exact h1
  · cases new
    · exact ht.ensureNoDC
    · exact ht.ensureDC

theorem setSN (h : s.Off Q X c) (new : Bool) : (s.setSN new).st.Off Q X c := by
  unfold St.setSN
  dsimp only
  refine Res.andThen_inv (P := fun t : St K => t.Off Q X c) ?_ fun t ht => ht.attrs _ _ _ _
  split_ifs
  · exact Res.andThen_inv (P := fun t : St K => t.Off Q X c) (h.scaleExch _) fun t ht => ht.scaleSite _
  · exact Res.andThen_inv (P := fun t : St K => t.Off Q X c) (h.scaleExch _) fun t ht => ht.scaleSite _
  · exact h

theorem setEF [DecidableEq K] (h : s.Off Q X c) (new : K) : (s.setEF new).st.Off Q X c := by
  unfold St.setEF
  dsimp only
  refine Res.andThen_inv (P := fun t : St K => t.Off Q X c) ?_ fun t ht => ht.attrs _ _ _ _
  cases s.ef with
  | none => exact h
  | some old =>
    dsimp only
    split_ifs
    · exact h.scaleExch _
    · exact h

theorem setOF [DecidableEq K] (h : s.Off Q X c) (new : K) : (s.setOF new).st.Off Q X c := by
  unfold St.setOF
  dsimp only
  refine Res.andThen_inv (P := fun t : St K => t.Off Q X c) ?_ fun t ht => ht.attrs _ _ _ _
  cases s.osf with
  | none => exact h
  | some old =>
    dsimp only
    split_ifs
    · exact h.scaleSite _
    · exact h

theorem setFour [DecidableEq K] (h : s.Off Q X c) (d n : Bool) (e o : K) : (s.setFour d n e o).st.Off Q X c := by
  unfold St.setFour
  exact Res.andThen_inv (P := fun t : St K => t.Off Q X c) (Res.andThen_inv (P := fun t : St K => t.Off Q X c)
    (Res.andThen_inv (P := fun t : St K => t.Off Q X c) (h.setDC d) fun t ht => ht.setSN n) fun t ht => ht.setEF e)
    fun t ht => ht.setOF o

theorem setNotation [DecidableEq K] (h : s.Off Q X c) (a : NotationArg K) : (s.setNotation a).st.Off Q X c := by
  cases a with
  | str n =>
    simp only [St.setNotation]
    cases predefined (K := K) n.toLower with
    | none => exact h
    | some q => exact h.setFour _ _ _ _
  | seq xs =>
    match xs with
    | [] => exact h
    | [_] => exact h
    | [_, _] => exact h
    | [d, n, e] => exact h.setFour _ _ _ _
    | [d, n, e, o] => exact h.setFour _ _ _ _
    | _ :: _ :: _ :: _ :: _ :: _ => exact h
  | other => exact h

theorem step {K : Type*} [Field K] [LinearOrder K] {Q : Prop} {X : ℕ → Prop} {c : ℕ → M3 K} {s : St K} (h : s.Off Q X c)
    (o : Op K) (ho : ∀ r ∈ o.refs, ¬ X r ∧ (Q → r < s.next)) : (o.step s).st.Off Q X c := by
  cases o with
  | newParam m => exact (h.alloc m).1
  | writeParam r m => exact h.write (ho r (by simp [Op.refs])).1 m
  | addAtom a =>
    simp only [Op.step, Res.st_ok]
    split_ifs
    · exact h
    · exact h.setAtoms _
  | addExchange x y R p => exact h.addExchange x y R p ho
  | removeExchange x y R f => exact h.removeExchange x y R f
  | addOnSite x p => exact h.addOnSite x p ho
  | removeOnSite x f => exact h.removeOnSite x f
  | setItem k p =>
    cases k with
    | site x => exact h.addOnSite x p ho
    | bond x y R => exact h.addExchange x y R p ho
    | bad => exact h
  | delItem k => exact h.delItem k
  | filter a b f order =>
    refine forEach_mem _ (fun k _ t ht => ?_) h
    unfold catchKeyError
    split_ifs
    · exact ht.delEntry k
    · exact ht.delEntry k
  | removeAtom x =>
    show (s.removeAtom x).st.Off Q X c
    unfold St.removeAtom
    cases s.find x with
    | error e => exact h
    | ok a =>
      refine Res.andThen_inv (P := fun t : St K => t.Off Q X c) (forEach_mem _ (fun k _ t ht => ht.delEntry k) h)
        fun t ht => ?_
      split_ifs
      · exact ht.setAtoms _
      · exact ht
  | setDC b => exact h.setDC b
  | setSN b => exact h.setSN b
  | setEF x => exact h.setEF x
  | setOF x => exact h.setOF x
  | setNotation a => exact h.setNotation a

/-- A program that does not name the objects does not change them. -/
theorem runOps {K : Type*} [Field K] [LinearOrder K] {X : ℕ → Prop} {c : ℕ → M3 K} (ops : List (Op K)) {s : St K}
    (h : s.Off False X c) (ho : Avoids X ops) : (runOps ops s).Off False X c := by
  induction ops generalizing s with
  | nil => exact h
  | cons o os ih =>
    exact ih (h.step o fun r hr => ⟨ho o List.mem_cons_self r hr, False.elim⟩) fun o' ho' => ho o' (List.mem_cons_of_mem _ ho')

end Off
end St
end Magnopy
