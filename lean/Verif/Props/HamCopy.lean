import Verif.Lemmas.Off
import Verif.Lemmas.HamCopy
import Verif.Props.HamNotation

/-!
# Property C54: copies are independent
-/

set_option autoImplicit false

set_option linter.unusedSectionVars false

namespace Magnopy

open PyDict

variable {K : Type*} [Field K]

namespace Two

/-- The objects of one of the Hamiltonians. -/
def Has (t : Two K) (w : Bool) (r : ℕ) : Prop := (∃ q ∈ (t.view w).exch, q.2 = r) ∨ ∃ q ∈ (t.view w).onSite, q.2 = r

/-- The objects exist and are disjoint. -/
def Apart (t : Two K) : Prop := ∀ w, (t.view w).Off True (t.Has !w) (t.view w).cell

variable [LinearOrder K]

theorem step_view_cell (t : Two K) (w : Bool) (o : Op K) (x : Bool) :
    ((t.step (w, o)).view x).cell = (o.step (t.view w)).st.cell ∧
      ((t.step (w, o)).view x).next = (o.step (t.view w)).st.next := by
  cases w <;> cases x <;> exact ⟨rfl, rfl⟩

theorem step_view (t : Two K) (w : Bool) (o : Op K) : (t.step (w, o)).view w = (o.step (t.view w)).st := by
  cases w <;> rfl

theorem step_other (t : Two K) (w : Bool) (o : Op K) : ((t.step (w, o)).view !w).toHam = (t.view !w).toHam := by
  cases w <;> rfl

theorem view_cell (t : Two K) (w x : Bool) : (t.view w).cell = (t.view x).cell ∧ (t.view w).next = (t.view x).next := by
  cases w <;> cases x <;> exact ⟨rfl, rfl⟩

theorem view_next (t : Two K) (w : Bool) : (t.view w).next = t.mem.next := by
  cases w <;> rfl

/-- A call on one of the two keeps the other, and keeps them apart. -/
theorem Apart.step {t : Two K} (h : t.Apart) (w : Bool) (o : Op K)
    (ho : ∀ r ∈ o.refs, r < t.mem.next ∧ (∀ q ∈ (t.view !w).exch, q.2 ≠ r) ∧ ∀ q ∈ (t.view !w).onSite, q.2 ≠ r) :
    (t.step (w, o)).Apart ∧ ∀ r, t.Has (!w) r → ((t.step (w, o)).view !w).cell r = (t.view !w).cell r := by
  have h1 : (o.step (t.view w)).st.Off True (t.Has !w) (t.view w).cell := (h w).step o fun r hr =>
    ⟨fun hx => by
      rcases hx with ⟨q, hq, e⟩ | ⟨q, hq, e⟩
      · exact (ho r hr).2.1 q hq e
      · exact (ho r hr).2.2 q hq e, fun _ => by rw [view_next]; exact (ho r hr).1⟩
  have hhas : ∀ r, (t.step (w, o)).Has (!w) r ↔ t.Has (!w) r := fun r => by
    simp only [Has, (congrArg Ham.exch (step_other t w o) :), (congrArg Ham.onSite (step_other t w o) :)]
  refine ⟨fun x => ?_, fun r hr => ?_⟩
  · rcases Bool.eq_or_eq_not x w with rfl | rfl
    · rw [step_view]
      exact ⟨fun r hr => h1.lt r ((hhas r).1 hr), fun p hp => ⟨fun hx => (h1.exch p hp).1 ((hhas _).1 hx), (h1.exch p hp).2⟩,
        fun p hp => ⟨fun hx => (h1.site p hp).1 ((hhas _).1 hx), (h1.site p hp).2⟩, fun _ _ => rfl⟩
    · rw [Bool.not_not]
      have hs := step_view t w o
      have key : ∀ r, t.Has (!w) r → ¬ (t.step (w, o)).Has w r := by
        intro r hr hx
        rw [Has, hs] at hx
        rcases hx with ⟨q, hq, e⟩ | ⟨q, hq, e⟩
        · exact (h1.exch q hq).1 (e ▸ hr)
        · exact (h1.site q hq).1 (e ▸ hr)
      refine ⟨fun r hr => ?_, fun p hp => ?_, fun p hp => ?_, fun _ _ => rfl⟩
      · rw [(step_view_cell t w o _).2]
        rw [Has, hs] at hr
        rcases hr with ⟨q, hq, e⟩ | ⟨q, hq, e⟩
        · exact e ▸ (h1.exch q hq).2 trivial
        · exact e ▸ (h1.site q hq).2 trivial
      · have hp' : t.Has (!w) p.2 := (hhas _).1 (Or.inl ⟨p, hp, rfl⟩)
        exact ⟨key _ hp', fun _ => by rw [(step_view_cell t w o _).2]; exact h1.lt _ hp'⟩
      · have hp' : t.Has (!w) p.2 := (hhas _).1 (Or.inr ⟨p, hp, rfl⟩)
        exact ⟨key _ hp', fun _ => by rw [(step_view_cell t w o _).2]; exact h1.lt _ hp'⟩
  · rw [(step_view_cell t w o _).1, (view_cell t (!w) w).1]
    exact h1.cell r hr

theorem run_append (l l' : List (Bool × Op K)) (t : Two K) : run (l ++ l') t = run l' (run l t) := by
  induction l generalizing t with
  | nil => rfl
  | cons p l ih => exact ih _

theorem separate_append (l l' : List (Bool × Op K)) (t : Two K) :
    Separate (l ++ l') t ↔ Separate l t ∧ Separate l' (run l t) := by
  induction l generalizing t with
  | nil => simp [Separate, run]
  | cons p l ih => simp only [List.cons_append, Separate, run, ih, and_assoc]

theorem Apart.run {t : Two K} (h : t.Apart) (l : List (Bool × Op K)) (hl : Separate l t) : (Two.run l t).Apart := by
  induction l generalizing t with
  | nil => exact h
  | cons p l ih => exact ih (h.step p.1 p.2 hl.1).1 hl.2

end Two

namespace St

/-- A Hamiltonian and its copy. -/
def withCopy (s : St K) : Two K := { mem := s.copy.toMem, fst := s.toHam, snd := s.copy.toHam }

theorem withCopy_apart {s : St K} (hk : s.KeysNodup) (ha : s.Alloc) : s.withCopy.Apart := by
  have hE : ∀ p ∈ s.exch, p.2 < s.next := fun p hp => ha.exch p.1 p.2 (get?_of_mem hk.exch hp)
  have hO : ∀ p ∈ s.onSite, p.2 < s.next := fun p hp => ha.site p.1 p.2 (get?_of_mem hk.site hp)
  have hf : ∀ r, s.withCopy.Has false r → r < s.next := by
    rintro r (⟨q, hq, rfl⟩ | ⟨q, hq, rfl⟩)
    · exact hE q hq
    · exact hO q hq
  have ht : ∀ r, s.withCopy.Has true r → s.next ≤ r ∧ r < s.next + s.next := by
    rintro r (⟨q, hq, rfl⟩ | ⟨q, hq, rfl⟩)
    · obtain ⟨p, hp, rfl⟩ := List.mem_map.1 (show q ∈ s.exch.map fun p => (p.1, p.2 + s.next) from hq)
      have := hE p hp
      simp only; omega
    · obtain ⟨p, hp, rfl⟩ := List.mem_map.1 (show q ∈ s.onSite.map fun p => (p.1, p.2 + s.next) from hq)
      have := hO p hp
      simp only; omega
  have hn : ∀ w, (s.withCopy.view w).next = s.next + s.next := by intro w; cases w <;> rfl
  intro w
  cases w
  · refine ⟨fun r hr => by have := ht r hr; rw [hn]; omega, fun p hp => ?_, fun p hp => ?_, fun _ _ => rfl⟩
    · have := hf p.2 (Or.inl ⟨p, hp, rfl⟩)
      exact ⟨fun hx => by have := ht _ hx; omega, fun _ => by rw [hn]; omega⟩
    · have := hf p.2 (Or.inr ⟨p, hp, rfl⟩)
      exact ⟨fun hx => by have := ht _ hx; omega, fun _ => by rw [hn]; omega⟩
  · refine ⟨fun r hr => by have := hf r hr; rw [hn]; omega, fun p hp => ?_, fun p hp => ?_, fun _ _ => rfl⟩
    · have := ht p.2 (Or.inl ⟨p, hp, rfl⟩)
      exact ⟨fun hx => by have := hf _ hx; omega, fun _ => by rw [hn]; omega⟩
    · have := ht p.2 (Or.inr ⟨p, hp, rfl⟩)
      exact ⟨fun hx => by have := hf _ hx; omega, fun _ => by rw [hn]; omega⟩

end St

/-- **C54 (equal).** Right after `copy()`, the copy has the bonds, on-site terms, matrices, notation, atoms and
spins of the original, and the original is as before. -/
theorem C54_equal (s : St K) (hk : s.KeysNodup) (ha : s.Alloc) :
    (∀ w, (s.withCopy.view w).exchangeItems = s.exchangeItems ∧ (s.withCopy.view w).onSiteItems = s.onSiteItems ∧
      (s.withCopy.view w).getNotation = s.getNotation ∧ (s.withCopy.view w).atoms = s.atoms ∧
      (s.withCopy.view w).spin = s.spin) := by
  intro w
  cases w
  · refine ⟨List.map_congr_left fun p hp => ?_, List.map_congr_left fun p hp => ?_, rfl, rfl, rfl⟩
    · rw [show (s.withCopy.view false).cell p.2 = s.cell p.2 from
        St.copy_cell_old s (ha.exch p.1 p.2 (get?_of_mem hk.exch hp))]
    · rw [show (s.withCopy.view false).cell p.2 = s.cell p.2 from
        St.copy_cell_old s (ha.site p.1 p.2 (get?_of_mem hk.site hp))]
  · refine ⟨?_, ?_, rfl, rfl, rfl⟩
    · show (s.exch.map fun p => (p.1, p.2 + s.next)).map _ = s.exch.map _
      rw [List.map_map]
      exact List.map_congr_left fun p hp => by
        show (p.1, s.copy.cell (p.2 + s.next)) = _
        rw [St.copy_cell_new]
    · show (s.onSite.map fun p => (p.1, p.2 + s.next)).map _ = s.onSite.map _
      rw [List.map_map]
      exact List.map_congr_left fun p hp => by
        show (p.1, s.copy.cell (p.2 + s.next)) = _
        rw [St.copy_cell_new]

/-- **C54 (independent).** After `copy()`, run any program of calls on the original and on the copy that does
not itself hand parameter objects of one to the other.  No call on one of them changes the parameters, the
notation, the atoms or the spins of the other. -/
theorem C54_independent [LinearOrder K] (s : St K) (hk : s.KeysNodup) (ha : s.Alloc) (prog : List (Bool × Op K))
    (w : Bool) (o : Op K) (hp : Two.Separate (prog ++ [(w, o)]) s.withCopy) :
    let before := (Two.run prog s.withCopy).view !w
    let after := (Two.run (prog ++ [(w, o)]) s.withCopy).view !w
    after.toHam = before.toHam ∧ after.exchangeItems = before.exchangeItems ∧ after.onSiteItems = before.onSiteItems := by
  intro before after
  rw [Two.separate_append] at hp
  have h1 := (St.withCopy_apart hk ha).run prog hp.1
  have h2 := (h1.step w o hp.2.1).2
  have h3 : after = ((Two.run prog s.withCopy).step (w, o)).view !w := by
    show (Two.run (prog ++ [(w, o)]) s.withCopy).view _ = _
    rw [Two.run_append]; rfl
  have h4 : after.toHam = before.toHam := by rw [h3]; exact Two.step_other _ _ _
  refine ⟨h4, ?_, ?_⟩
  · unfold St.exchangeItems
    rw [(congrArg Ham.exch h4 :)]
    refine List.map_congr_left fun p hp => ?_
    rw [h3, h2 p.2 (Or.inl ⟨p, hp, rfl⟩)]
  · unfold St.onSiteItems
    rw [(congrArg Ham.onSite h4 :)]
    refine List.map_congr_left fun p hp => ?_
    rw [h3, h2 p.2 (Or.inr ⟨p, hp, rfl⟩)]

open HistoryExample DictExample in
/-- The hypotheses hold for a program on `s1` and its copy, after which they differ. -/
example :
    let prog : List (Bool × Op ℚ) := [(false, .setEF 2), (true, .removeExchange (.atom fe1) (.atom fe2) (1, 0, 0) true),
      (false, .addOnSite (.atom fe2) (.fresh mA)), (true, .setNotation (.str "SpinW"))]
    s1.KeysNodup ∧ s1.Alloc ∧ Two.Separate prog s1.withCopy ∧
      ((Two.run prog s1.withCopy).view false).exch.length = 4 ∧ ((Two.run prog s1.withCopy).view true).exch.length = 2 ∧
      ((Two.run prog s1.withCopy).view true).ef = some 1 := by
  refine ⟨s1_inv.nodup, s1_alloc, ?_, by decide +kernel, by decide +kernel, by decide +kernel⟩
  simp [Two.Separate, Op.refs, ParamArg.refs]

end Magnopy
