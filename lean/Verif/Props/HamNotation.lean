import Verif.Lemmas.HamKept
import Verif.Props.HamIter
import Mathlib.Tactic.NormNum

/-!
# Properties C05-C08, C11-C13: the notation
-/

set_option autoImplicit false

set_option linter.unusedSectionVars false

namespace Magnopy

open PyDict

variable {K : Type*} [Field K]

/-! ### C05, C06 -/

section Energy

variable [LinearOrder K] {Γ : Type*} [AddCommGroup Γ] [Fintype Γ]

/-- **C05, what is provable.** The notation of the Hamiltonian is complete; the atoms have non-zero spins; bonds are stored in both
orientations if they are counted twice and in one of the two orientations if they are counted once.  Any sequence of assignments to
`double_counting`, `spin_normalized`, `exchange_factor`, `on_site_factor` and `notation` (any argument, factors other than zero,
whether or not they raise) keeps the classical energy of every configuration on every periodic supercell, and the Hamiltonian stays
of this kind.

Missing for the full property: Hamiltonians that are not `Paired`, see the theorems `C05_..._false`. -/
theorem C05_energy_partial (h2 : (2 : K) ≠ 0) (s : St K) (sp : Atom → K) (hs : s.Paired) (hsp : s.Spins sp)
    (hc : s.Complete) (ops : List (Op K)) (hops : ∀ o ∈ ops, o.Renotes) (c : Config K Γ) :
    (∃ E, s.physics c sp = some E ∧ (runOps ops s).physics c sp = some E) ∧ (runOps ops s).Paired ∧
      (s.WellFormed → (runOps ops s).WellFormed) := by
  have h := St.run_kept (Γ := Γ) h2 ops hops hs hsp hc
  obtain ⟨d, n, e, o, hn, _, _⟩ := hc
  refine ⟨⟨_, St.physics_eq hn c sp, ?_⟩, h.wf, h.wellFormed⟩
  rw [h.physics, St.physics_eq hn]

/-- No assignment of the sequence raises, except for arguments that are not a notation. -/
theorem C05_no_exception_partial (h2 : (2 : K) ≠ 0) (s : St K) (sp : Atom → K) (hs : s.WellFormed) (hsp : s.Spins sp)
    (hc : s.Complete) (op : Op K) (hop : op.Renotes) :
    (op.step s).err = none ∨
      ((op.step s).err = some .valueError ∧ ∃ a, op = .setNotation a ∧ ∀ q, ¬ a.Means q) := by
  have h := (St.step_renoted (Γ := Unit) hs hsp h2 hc op hop).2
  simp only [List.mem_cons, List.not_mem_nil, or_false] at h
  rcases h with h | h
  · exact Or.inl h
  · refine Or.inr ⟨h, ?_⟩
    obtain ⟨d0, n0, e0, o0, hn, he0, ho0⟩ := hc
    cases op with
    | setNotation a =>
      rcases St.setNotation_means s a with ⟨d, n, e, o, hm, heq, _⟩ | ⟨hm, _⟩
      · have hz := hop _ hm
        obtain ⟨t, ht, _⟩ := St.setFour_renoted (Γ := Unit) hs hsp h2 ⟨_, _, _, _, hn, he0, ho0⟩ d n hz.1 hz.2
        simp [Op.step, heq, ht] at h
      · exact ⟨a, rfl, hm⟩
    | setDC b =>
      obtain ⟨t, ht, _⟩ := St.setDC_renoted (Γ := Unit) hs hsp h2 hn he0 ho0 b
      simp [Op.step, ht] at h
    | setSN b =>
      obtain ⟨t, ht, _⟩ := St.setSN_renoted (Γ := Unit) hs hsp hn he0 ho0 b
      simp [Op.step, ht] at h
    | setEF x =>
      obtain ⟨t, ht, _⟩ := St.setEF_renoted (Γ := Unit) hs hsp hn ho0 (new := x) hop
      simp [Op.step, ht] at h
    | setOF x =>
      obtain ⟨t, ht, _⟩ := St.setOF_renoted (Γ := Unit) hs hsp hn he0 (new := x) hop
      simp [Op.step, ht] at h
    | _ => exact absurd hop (by simp [Op.Renotes])

/-- The exceptions if bonds are counted once in either orientation: besides `ValueError` for arguments that are not a notation there
is one case, `double_counting = False` (or a notation without double counting) although it is `False` already and some bond is not
canonical.  It raises `TypeError` and changes nothing. -/
theorem C05_exceptions_partial (h2 : (2 : K) ≠ 0) (s : St K) (sp : Atom → K) (hs : s.Paired) (hsp : s.Spins sp)
    (hc : s.Complete) (op : Op K) (hop : op.Renotes) :
    (op.step s).err = none ∨
      ((op.step s).err = some .valueError ∧ ∃ a, op = .setNotation a ∧ ∀ q, ¬ a.Means q) ∨
      ((op.step s).err = some .typeError ∧ (op.step s).st = s ∧ s.dc = some false ∧ (∃ b ∈ s.exch.keys, ¬ Canonical b) ∧
        (op = .setDC false ∨ ∃ a n e o, op = .setNotation a ∧ a.Means (false, n, e, o))) := by
  by_cases hw : s.WellFormed
  · rcases C05_no_exception_partial h2 s sp hw hsp hc op hop with h | h
    · exact .inl h
    · exact .inr (.inl h)
  have hc' := hc
  obtain ⟨d0, n0, e0, o0, hn, he0, ho0⟩ := hc
  have hd : s.dc = some false := by
    have := (St.getNotation_ok_iff.1 hn).1
    cases d0 with
    | true => exact absurd (hs.wf_of_true this) hw
    | false => exact this
  obtain ⟨hst, hb⟩ := St.setDC_stuck hs hd hw
  cases op with
  | setDC b =>
    cases b with
    | true =>
      obtain ⟨t, a, _⟩ := St.setDC_on_renoted (Γ := Unit) hs hsp h2 hn he0 ho0
      exact .inl (by simp [Op.step, a])
    | false =>
      exact .inr (.inr ⟨by simp [Op.step, hst], by simp [Op.step, hst], hd, hb, .inl rfl⟩)
  | setSN b =>
    obtain ⟨t, a, _⟩ := St.setSN_kept (Γ := Unit) hs hsp hn he0 ho0 b
    exact .inl (by simp [Op.step, a])
  | setEF x =>
    obtain ⟨t, a, _⟩ := St.setEF_kept (Γ := Unit) hs hsp hn ho0 (new := x) hop
    exact .inl (by simp [Op.step, a])
  | setOF x =>
    obtain ⟨t, a, _⟩ := St.setOF_kept (Γ := Unit) hs hsp hn he0 (new := x) hop
    exact .inl (by simp [Op.step, a])
  | setNotation a =>
    rcases St.setNotation_means s a with ⟨d, n, e, o, hm, heq, _⟩ | ⟨hm, heq⟩
    · have hz := hop _ hm
      cases d with
      | true =>
        obtain ⟨t, b, _⟩ := St.setFour_on_renoted (Γ := Unit) hs hsp h2 hc' n hz.1 hz.2
        exact .inl (by simp [Op.step, heq, b])
      | false =>
        have : s.setFour false n e o = .raise s .typeError := by
          simp [St.setFour, hst, Res.andThen, Res.raise]
        exact .inr (.inr ⟨by simp [Op.step, heq, this], by simp [Op.step, heq, this], hd, hb, .inr ⟨a, n, e, o, rfl, hm⟩⟩)
    · exact .inr (.inl ⟨by simp [Op.step, heq], a, rfl, hm⟩)
  | _ => exact absurd hop (by simp [Op.Renotes])

/-- **C06.** After any sequence of assignments to the notation that ends in the notation
of the start, the stored bonds and on-site terms and all their matrices are the same as at the start.
(A round trip is the sequence of two assignments.)  That the Hamiltonian is well-formed is needed, see
`C06_not_well_formed_false`. -/
theorem C06_round_trip (h2 : (2 : K) ≠ 0) (s : St K) (sp : Atom → K) (hs : s.WellFormed) (hsp : s.Spins sp)
    (hc : s.Complete) (ops : List (Op K)) (hops : ∀ o ∈ ops, o.Renotes)
    (hback : (runOps ops s).getNotation = s.getNotation) :
    (∀ b, (runOps ops s).valE b = s.valE b) ∧ (∀ a, (runOps ops s).valO a = s.valO a) := by
  have h := St.run_renoted (Γ := Unit) h2 ops hops hs hsp hc
  obtain ⟨d, n, e, o, hn, he, ho⟩ := hc
  exact St.values_of_pairE hs h.wf hsp h.atoms h2 hn (hback.trans hn) he ho h.pairE h.siteE

/-- **C06 if bonds are counted once in either orientation.** After any sequence of assignments to the notation that ends in the
notation of the start, on-site terms are the same as at the start, and each pair of atoms has the same matrix (the one of the bond
or the transposed one of its mirror).  Either all bonds are stored as at the start, or all bonds are canonical. -/
theorem C06_turned (h2 : (2 : K) ≠ 0) (s : St K) (sp : Atom → K) (hs : s.Paired) (hsp : s.Spins sp)
    (hc : s.Complete) (ops : List (Op K)) (hops : ∀ o ∈ ops, o.Renotes)
    (hback : (runOps ops s).getNotation = s.getNotation) :
    (∀ b, ((runOps ops s).valE b).or (((runOps ops s).valE b.mirror).map Matrix.transpose) =
      (s.valE b).or ((s.valE b.mirror).map Matrix.transpose)) ∧
    (∀ a, (runOps ops s).valO a = s.valO a) ∧
    ((∀ b, (runOps ops s).valE b = s.valE b) ∨ ∀ b ∈ (runOps ops s).exch.keys, Canonical b) := by
  have h := St.run_kept (Γ := Unit) h2 ops hops hs hsp hc
  obtain ⟨d, n, e, o, hn, he, ho⟩ := hc
  have h1 := St.one_of_pairE hs h.wf hsp h.atoms h2 hn (hback.trans hn) he h.pairE
  refine ⟨h1, St.valO_of_siteE hs.refer h.wf.refer hsp h.atoms hn (hback.trans hn) ho h.siteE, ?_⟩
  have hd := (St.getNotation_ok_iff.1 hn).1
  have hd' := (St.getNotation_ok_iff.1 (hback.trans hn)).1
  cases d with
  | true =>
    exact .inl (St.values_of_pairE (hs.wf_of_true hd) (h.wf.wf_of_true hd') hsp h.atoms h2 hn (hback.trans hn) he ho h.pairE h.siteE).1
  | false =>
    rcases h.either with ⟨-, hk⟩ | hw
    · refine .inl fun b => ?_
      by_cases hb : b ∈ s.exch.keys
      · have := h1 b
        rw [St.oneE, St.oneE, St.valE_eq_none_iff.2 (hs.single hd b hb),
          St.valE_eq_none_iff.2 (h.wf.single hd' b ((hk b).2 hb))] at this
        simpa using this
      · rw [St.valE_eq_none_iff.2 hb, St.valE_eq_none_iff.2 fun hb' => hb ((hk b).1 hb')]
    · exact .inr (hw.once hd')

/-- Well-formed Hamiltonians are what programs produce: after any history of calls that shares no parameter
objects and contradicts no stored mirror, ending with double counting, with atoms of different indices and
no bond of an atom with itself. -/
theorem C05_reachable (m : Mem K) (atoms : List Atom) (sp : Atom → K) (dist : Bond → K) (ops : List (Op K))
    (hg : GoodRun ops (St.empty m atoms (fun a => some (sp a)) dist)) (s : St K)
    (hs : runOps ops (St.empty m atoms (fun a => some (sp a)) dist) = s) (hdc : s.dc = some true)
    (hi : ∀ a ∈ s.atoms, ∀ b ∈ s.atoms, a.index = b.index → a = b) (hself : ∀ b ∈ s.exch.keys, b.mirror ≠ b)
    (hsp : ∀ a ∈ s.atoms, sp a ≠ 0) : s.WellFormed ∧ s.Spins sp := by
  have h := runOps_inv3 ops _ (inv3_empty m atoms sp dist) hg
  rw [hs] at h
  refine ⟨⟨⟨h.inv2.inv.nodup, h.inv2.inv.refer, h.inv2.alloc, h.inv2.noShare, hi, hself⟩, fun _ b => ?_,
    fun h0 => by rw [hdc] at h0; cases h0⟩, fun a ha => ⟨h.spin a, hsp a ha⟩⟩
  cases hb : s.valE b with
  | none =>
    cases hm : s.valE b.mirror with
    | none => rfl
    | some m =>
      have : b.mirror ∈ s.exch.keys := St.isSome_valE_iff.1 (by rw [hm]; rfl)
      have := h.inv2.inv.closed hdc _ this
      rw [Bond.mirror_mirror, ← St.isSome_valE_iff, hb] at this
      cases this
  | some m =>
    have : b ∈ s.exch.keys := St.isSome_valE_iff.1 (by rw [hb]; rfl)
    obtain ⟨m', hm'⟩ := Option.isSome_iff_exists.1 (St.isSome_valE_iff.2 (h.inv2.inv.closed hdc _ this))
    rw [hm', h.inv2.cons b m m' hb hm']; rfl

/-- The same without double counting, if no bond was added in both orientations. -/
theorem C05_reachable_once (m : Mem K) (atoms : List Atom) (sp : Atom → K) (dist : Bond → K) (ops : List (Op K))
    (hg : GoodRun ops (St.empty m atoms (fun a => some (sp a)) dist)) (s : St K)
    (hs : runOps ops (St.empty m atoms (fun a => some (sp a)) dist) = s)
    (hdc : s.dc = some false → ∀ b ∈ s.exch.keys, b.mirror ∉ s.exch.keys)
    (hi : ∀ a ∈ s.atoms, ∀ b ∈ s.atoms, a.index = b.index → a = b) (hself : ∀ b ∈ s.exch.keys, b.mirror ≠ b)
    (hsp : ∀ a ∈ s.atoms, sp a ≠ 0) : s.Paired ∧ s.Spins sp := by
  by_cases hd : s.dc = some true
  · have := C05_reachable m atoms sp dist ops hg s hs hd hi hself hsp
    exact ⟨this.1.paired, this.2⟩
  · have h := runOps_inv3 ops _ (inv3_empty m atoms sp dist) hg
    rw [hs] at h
    exact ⟨⟨⟨h.inv2.inv.nodup, h.inv2.inv.refer, h.inv2.alloc, h.inv2.noShare, hi, hself⟩, fun h0 => absurd h0 hd, hdc⟩,
      fun a ha => ⟨h.spin a, hsp a ha⟩⟩

end Energy

namespace NotationExample

open HistoryExample DictExample IterExample

theorem s1_wf : s1.WellFormed ∧ s1.Spins fun _ => 5 / 2 :=
  C05_reachable _ _ _ _ ops ops_good s1 rfl (by decide +kernel) (by decide +kernel) (by decide +kernel)
    (fun _ _ => by norm_num)

theorem s1_complete : s1.Complete := ⟨true, true, -1, -1, by decide +kernel, by norm_num, by norm_num⟩

/-- Off and on again, other factors, a name, an argument that is not a notation, back to "tb2j". -/
def there : List (Op ℚ) :=
  [.setDC false, .setEF (1 / 2), .setNotation (.str "MAGNOPY"), .setSN true, .setNotation (.seq [1, 2]),
   .setNotation (.seq [0, 1, 3]), .setOF 7]

theorem there_renotes : ∀ o ∈ there, o.Renotes := by
  intro o ho
  simp only [there, List.mem_cons, List.not_mem_nil, or_false] at ho
  rcases ho with rfl | rfl | rfl | rfl | rfl | rfl | rfl
  · trivial
  · change (1 / 2 : ℚ) ≠ 0; norm_num
  · rintro q (⟨h, rfl⟩ | ⟨h, rfl⟩ | ⟨h, rfl⟩ | ⟨h, rfl⟩) <;> exact ⟨by norm_num, by norm_num⟩
  · trivial
  · rintro q ⟨x, y, _, _, ⟨h, _⟩ | h⟩ <;> simp at h
  · rintro ⟨d, n, e, o⟩ ⟨x, y, _, _, ⟨h, h'⟩ | h⟩
    · simp only [List.cons.injEq, and_true] at h
      obtain ⟨_, _, rfl⟩ := h
      subst h'
      exact ⟨by norm_num, by norm_num⟩
    · simp at h
  · change (7 : ℚ) ≠ 0; norm_num

/-- The hypotheses of C05 hold; the energy is not zero; the state really changes. -/
example : s1.WellFormed ∧ s1.Spins (fun _ => 5 / 2) ∧ s1.Complete ∧ (∀ o ∈ there, o.Renotes) ∧
    s1.physics cfg (fun _ => 5 / 2) = some (675 / 4) ∧
    (runOps there s1).physics cfg (fun _ => 5 / 2) = some (675 / 4) ∧
    s1.exch.length = 4 ∧ (runOps there s1).exch.length = 2 := by
  refine ⟨s1_wf.1, s1_wf.2, s1_complete, there_renotes, ?_, ?_, ?_, ?_⟩ <;> decide +kernel

/-- The hypotheses of C06 hold for a round trip. -/
example : (runOps (there ++ [.setNotation (.str "tb2j")]) s1).getNotation = s1.getNotation ∧
    s1.getNotation = .ok (true, true, -1, -1) := by decide +kernel

/-- A bond of an atom with itself. -/
def selfBond : List (Op ℚ) :=
  [.setNotation (.str "SpinW"), .addExchange (.atom fe1) (.atom fe1) (0, 0, 0) (.fresh mB)]

/-- One parameter object for two bonds. -/
def sharedObj : List (Op ℚ) :=
  [.newParam mB, .setNotation (.str "SpinW"), .addExchange (.atom fe1) (.atom fe2) (1, 0, 0) (.obj 0),
   .addExchange (.atom fe1) (.atom fe2) (2, 0, 0) (.obj 0)]

/-- A bond without double counting, in the orientation that is not canonical. -/
def wrongSide : List (Op ℚ) :=
  [.setNotation (.seq [0, 0, 1]), .addExchange (.atom fe1) (.atom fe2) (-1, 0, 0) (.fresh mB)]

/-- The hypotheses hold for it. -/
theorem wrongSide_paired : (runOps wrongSide s0).Paired ∧ (runOps wrongSide s0).Spins fun _ => 5 / 2 :=
  C05_reachable_once _ _ _ _ wrongSide (by
      refine ⟨trivial, ⟨trivial, ?_⟩, trivial⟩
      rintro a b rfl rfl
      exact ⟨fun h => absurd h (by decide), fun m' h => absurd h (by
        have : ∀ b, ((Op.setNotation (.seq [0, 0, 1])).step s0).st.valE b = none := fun b => rfl
        exact fun h => by cases (this _).symm.trans h)⟩) _ rfl (by decide +kernel) (by decide +kernel)
    (by decide +kernel) (fun _ _ => by norm_num)

/-- C05 and C06 for it: the bond is turned around, the energy and the matrix of the pair stay; `double_counting = False` raises. -/
example : ((Op.setDC false).step (runOps wrongSide s0)).err = some .typeError ∧
    (runOps [.setDC false, .setEF 3, .setDC true, .setSN true, .setNotation (.seq [0, 0, 1])] (runOps wrongSide s0)).getNotation =
      (runOps wrongSide s0).getNotation ∧
    (runOps [.setDC false, .setEF 3, .setDC true, .setSN true, .setNotation (.seq [0, 0, 1])] (runOps wrongSide s0)).exch.keys =
      [(fe2, fe1, (1, 0, 0))] ∧
    (runOps wrongSide s0).exch.keys = [(fe1, fe2, (-1, 0, 0))] ∧
    (runOps wrongSide s0).physics cfg (fun _ => 5 / 2) = some (75 / 4) := by
  refine ⟨by decide +kernel, by decide +kernel, by decide +kernel, by decide +kernel, by decide +kernel⟩

end NotationExample

/-- The full statement of C05 for Hamiltonians built by any history of calls. -/
def C05_statement : Prop :=
  ∀ (m : Mem ℚ) (atoms : List Atom) (sp : Atom → ℚ) (dist : Bond → ℚ) (hist : List (Op ℚ)) (s : St ℚ),
    runOps hist (St.empty m atoms (fun a => some (sp a)) dist) = s → s.Complete → (∀ a, sp a ≠ 0) →
    ∀ (op : Op ℚ), op.Renotes → ∀ c : Config ℚ Unit, (op.step s).st.physics c sp = s.physics c sp

open NotationExample HistoryExample IterExample in
/-- **C05 is false of the code** for a bond of an atom with itself in the same cell: it is removed together
with its own mirror (hamiltonian.py 342-365). -/
theorem C05_self_bond_false : ¬ C05_statement := by
  intro h
  have h1 := h ⟨fun _ => 0, 0⟩ [fe1] (fun _ => 5 / 2) (fun _ => 1) selfBond _ rfl
    ⟨true, false, 1, 1, by decide +kernel, by norm_num, by norm_num⟩ (fun _ => by norm_num) (.setDC false) trivial cfg
  revert h1
  decide +kernel

open NotationExample HistoryExample IterExample in
/-- **C05 is false of the code** if one parameter object is used for two bonds. -/
theorem C05_shared_false : ¬ C05_statement := by
  intro h
  have h1 := h ⟨fun _ => 0, 0⟩ [fe1] (fun _ => 5 / 2) (fun _ => 1) sharedObj _ rfl
    ⟨true, false, 1, 1, by decide +kernel, by norm_num, by norm_num⟩ (fun _ => by norm_num) (.setEF 2)
    (by change (2 : ℚ) ≠ 0; norm_num) cfg
  revert h1
  decide +kernel

open NotationExample HistoryExample IterExample in
/-- **C05 is false of the code** if a bond was added twice (the stale mirror is dropped). -/
theorem C05_stale_mirror_false : ¬ C05_statement := by
  intro h
  have h1 := h ⟨fun _ => 0, 0⟩ [fe1] (fun _ => 5 / 2) (fun _ => 1) reAdd _ rfl
    ⟨true, false, 1, 1, by decide +kernel, by norm_num, by norm_num⟩ (fun _ => by norm_num) (.setDC false) trivial cfg
  revert h1
  decide +kernel

open NotationExample HistoryExample IterExample in
/-- **C06 does not hold** for a bond of an atom with itself, and for a non-canonical bond without double
counting (where double counting on and off turns the bond around). -/
theorem C06_not_well_formed_false :
    (∃ b, (runOps [.setDC false, .setDC true] (runOps selfBond s0)).valE b ≠ (runOps selfBond s0).valE b) ∧
    (runOps [.setDC true, .setDC false] (runOps wrongSide s0)).exch.keys ≠ (runOps wrongSide s0).exch.keys := by
  refine ⟨⟨(fe1, fe1, (0, 0, 0)), fun h => ?_⟩, by decide +kernel⟩
  have h1 := congrArg Option.isSome h
  revert h1
  decide +kernel

/-! ### C07 -/

/-- **C07 (`spin_normalized`, `exchange_factor`, `on_site_factor`).** The first assignment only records the
value: no parameter, no key, nothing else changes. -/
theorem C07_first_assignment [DecidableEq K] (s : St K) :
    (s.sn = none → ∀ n, s.setSN n = .ok { s with sn := some n }) ∧
    (s.ef = none → ∀ x, s.setEF x = .ok { s with ef := some x }) ∧
    (s.osf = none → ∀ x, s.setOF x = .ok { s with osf := some x }) := by
  refine ⟨fun h n => by simp [St.setSN, h], fun h x => by simp [St.setEF, h], fun h x => by simp [St.setOF, h]⟩

/-- **C07 (`double_counting`), what is provable.** The first assignment of `double_counting` does not rescale:
every value that was stored is stored afterwards, under the same key or transposed under the mirrored key
— also if the assignment raises.  On-site terms are untouched.

Missing for the full property: bonds of an atom with itself (`C07_self_bond_false`), and pairs whose two stored
values contradict each other. -/
theorem C07_double_counting_partial (s : St K) (hs : s.Sound) (hc : s.Cons) (hdc : s.dc = none) (new : Bool)
    (b : Bond) (J : M3 K) (hJ : s.valE b = some J) :
    ((s.setDC new).st.valE b = some J ∨ (s.setDC new).st.valE b.mirror = some J.transpose) ∧
      ∀ a, (s.setDC new).st.valO a = s.valO a := by
  have hb : b ∈ s.exch.keys := St.isSome_valE_iff.1 (by rw [hJ]; rfl)
  have hf : ∀ new, (St.dcFactor none new : K) = 1 := fun new => by simp [St.dcFactor]
  by_cases hcl : new = false → ∀ b ∈ s.exch.keys, St.keeps b = false → b.mirror ∈ s.exch.keys
  · obtain ⟨t, ht, _, _, _, _, _, _, hv, hv'⟩ := St.setDC_ok hs.keys hs.refer hs.alloc hs.noShare new hcl
    rw [ht]
    refine ⟨?_, hv'⟩
    rw [Res.st_ok, hv, hv, hdc]
    simp only [St.dcMap, hf, one_smul, Option.map_id', Bond.mirror_mirror]
    cases new with
    | true => right; simp [hJ]
    | false =>
      simp only [Bool.false_eq_true, if_false]
      have hm := keeps_mirror (hs.noSelf b hb) (hs.index _ (hs.refer.exch b hb).1 _ (hs.refer.exch b hb).2)
      cases hk : St.keeps b with
      | true =>
        left
        rw [hk] at hm
        simp [hm, hJ]
      | false =>
        right
        rw [hk] at hm
        have hmm := hcl rfl b hb hk
        obtain ⟨J', hJ'⟩ := Option.isSome_iff_exists.1 (St.isSome_valE_iff.2 hmm)
        rw [hc b J J' hJ hJ'] at hJ'
        simp [hm, hJ']
  · have hnew : new = false := by
      cases new with
      | false => rfl
      | true => exact absurd (fun h => by cases h) hcl
    subst hnew
    have hd := St.dcScaled_toHam s false
    have hex : (s.dcScaled false).exch = s.exch := (congrArg Ham.exch hd.1 :)
    have hv := St.dcScaled_valE hs.keys hs.noShare false
    cases hcr : (s.dcScaled false).collectRemovals (s.dcScaled false).exch.keys with
    | ok rem =>
      exact absurd (fun _ => by
        have := (St.collectRemovals_ok_iff _ _).1 ⟨rem, hcr⟩
        rwa [hex] at this) hcl
    | error e =>
      have : s.setDC false = .raise (s.dcScaled false) e := by
        rw [St.setDC_eq hs.keys]
        simp only [Bool.false_eq_true, if_false, St.ensureNoDC, hcr]
      rw [this]
      refine ⟨Or.inl ?_, hv.2⟩
      rw [Res.st_raise, hv.1, hJ, hdc, hf]
      simp

open HistoryExample in
/-- **C07 is false of the code** for a bond of an atom with itself: it is removed. -/
theorem C07_self_bond_false :
    ∃ s : St ℚ, s.dc = none ∧ (s.valE (fe1, fe1, (0, 0, 0))).isSome ∧ (s.setDC false).err = none ∧
      (s.setDC false).st.exch = [] :=
  ⟨runOps [.addExchange (.atom fe1) (.atom fe1) (0, 0, 0) (.fresh mB)] s0, by decide +kernel⟩

namespace NotationExample

open HistoryExample

/-- Notation not set; the bond Fe1-Fe2 in the orientation that is not canonical and its mirror. -/
def bare : St ℚ := runOps [.addExchange (.atom fe1) (.atom fe2) (-1, 0, 0) (.fresh mA),
  .addExchange (.atom fe2) (.atom fe1) (1, 0, 0) (.fresh mA.transpose)] s0

/-- Both outcomes of C07 occur: kept, and kept at the mirrored key. -/
example : bare.dc = none ∧ (bare.setDC false).err = none ∧
    (bare.setDC false).st.exch.keys = [(fe2, fe1, (1, 0, 0))] ∧
    ((bare.setDC false).st.valE (fe2, fe1, (1, 0, 0))).map (fun M => M 1 0) = some 2 := by decide +kernel

end NotationExample

/-! ### C08 -/

/-- **C08 (reading).** `notation` raises `NotationError` exactly while one of the four attributes is unset, and
returns the four attributes otherwise. -/
theorem C08_read (s : St K) :
    (s.getNotation = .error .notationError ↔ s.dc = none ∨ s.sn = none ∨ s.ef = none ∨ s.osf = none) ∧
    (∀ d n e o, s.getNotation = .ok (d, n, e, o) ↔ s.dc = some d ∧ s.sn = some n ∧ s.ef = some e ∧ s.osf = some o) ∧
    (∀ err, s.getNotation = .error err → err = .notationError) := by
  refine ⟨?_, fun d n e o => St.getNotation_ok_iff, ?_⟩
  · unfold St.getNotation
    cases s.dc <;> cases s.sn <;> cases s.ef <;> cases s.osf <;> simp
  · unfold St.getNotation
    cases s.dc <;> cases s.sn <;> cases s.ef <;> cases s.osf <;> simp

/-- **C08 (assigning).** Whatever the state and the argument: either the argument means one notation, and
if the assignment succeeds then `notation` reads that notation; or it means none, `ValueError` is raised, and
nothing has changed. -/
theorem C08_assign [DecidableEq K] (s : St K) (a : St.NotationArg K) :
    (∃ q, a.Means q ∧ (∀ q', a.Means q' → q' = q) ∧
        ((s.setNotation a).err = none → (s.setNotation a).st.getNotation = .ok q)) ∨
      ((∀ q, ¬ a.Means q) ∧ s.setNotation a = .raise s .valueError) := by
  rcases St.setNotation_means s a with ⟨d, n, e, o, hm, heq, hu⟩ | h
  · refine Or.inl ⟨(d, n, e, o), hm, hu, fun h => ?_⟩
    rw [heq] at h ⊢
    exact St.setFour_flags d n e o s h
  · exact Or.inr h

/-- Arguments that mean a notation, and arguments that do not. -/
example : (St.NotationArg.str "TB2J" : St.NotationArg ℚ).Means (true, true, -1, -1) ∧
    (St.NotationArg.seq [1, 0, 3] : St.NotationArg ℚ).Means (true, false, 3, 3) ∧
    (St.NotationArg.seq [1, 0, 3, 5] : St.NotationArg ℚ).Means (true, false, 3, 5) ∧
    (∀ q, ¬ (St.NotationArg.seq [1, 0] : St.NotationArg ℚ).Means q) := by
  refine ⟨Or.inr (Or.inl ⟨by decide +kernel, rfl⟩), ⟨1, 0, by simp, by simp, Or.inl ⟨rfl, rfl⟩⟩,
    ⟨1, 0, by simp, by simp, Or.inr rfl⟩, ?_⟩
  rintro q ⟨x, y, _, _, ⟨h, _⟩ | h⟩ <;> simp at h

open HistoryExample in
/-- A successful assignment on a Hamiltonian with parameters. -/
example : ((runOps ops s0).setNotation (.seq [0, 0, 3, 5])).err = none ∧
    ((runOps ops s0).setNotation (.seq [0, 0, 3, 5])).st.getNotation = .ok (false, false, 3, 5) ∧
    s0.getNotation = .error .notationError := by decide +kernel

/-! ### C11 -/

/-- **C11 (successful assignments).** After `ham.double_counting = False`, if it did not raise, no stored bond has
its mirror stored and every stored bond is canonical — whatever bonds the Hamiltonian held. -/
theorem C11_canonical (s : St K) (hk : s.KeysNodup) (hok : (s.setDC false).err = none) :
    ∀ b ∈ (s.setDC false).st.exch.keys, Canonical b ∧ b.mirror ∉ (s.setDC false).st.exch.keys := by
  have hd := St.dcScaled_toHam s false
  have hk1 : (s.dcScaled false).KeysNodup := St.KeysNodup.congr (s := { s with dc := some false }) hd.1 ⟨hk.exch, hk.site⟩
  have hdc : (s.dcScaled false).dc ≠ some true := by rw [(congrArg Ham.dc hd.1 :)]; simp
  rw [St.setDC_eq hk] at hok ⊢
  simp only [Bool.false_eq_true, if_false] at hok ⊢
  cases hcr : (s.dcScaled false).collectRemovals (s.dcScaled false).exch.keys with
  | error e => simp [St.ensureNoDC, hcr] at hok
  | ok rem =>
    rw [St.ensureNoDC_eq hdc hcr, Res.st_ok]
    have key : ∀ b ∈ ((s.dcScaled false).ensuredNoDC rem).exch.keys,
        St.keeps b = true ∧ (b.mirror ∈ (s.dcScaled false).exch.keys → St.keeps b.mirror = false) := by
      intro b hb
      rw [← St.isSome_valE_iff, St.ensuredNoDC_valE hk1 hcr] at hb
      split_ifs at hb with h
      · cases hb
      · rw [not_or, not_and] at h
        exact ⟨by simpa using h.1, fun hm => by simpa using h.2 hm⟩
    intro b hb
    refine ⟨(keeps_iff b).1 (key b hb).1, fun hm => ?_⟩
    have h1 := (key _ hm).1
    have hmem : b.mirror ∈ (s.dcScaled false).exch.keys := by
      obtain ⟨r, hr⟩ := mem_keys_iff.1 hm
      exact mem_keys_iff.2 ⟨r, St.ensuredNoDC_sub hk1 hr⟩
    rw [(key b hb).2 hmem] at h1
    cases h1

/-- When the assignment raises: exactly if some stored bond is not canonical and its mirror is not stored;
the exception is `TypeError`, `double_counting` is `False` already, and all bonds are still there. -/
theorem C11_exception (s : St K) (hk : s.KeysNodup) :
    ((s.setDC false).err = none ↔ ∀ b ∈ s.exch.keys, Canonical b ∨ b.mirror ∈ s.exch.keys) ∧
    ((s.setDC false).err ≠ none → (s.setDC false).err = some .typeError ∧ (s.setDC false).st.dc = some false ∧
      (s.setDC false).st.exch = s.exch) := by
  have hd := St.dcScaled_toHam s false
  have hex : (s.dcScaled false).exch = s.exch := (congrArg Ham.exch hd.1 :)
  have hdc : (s.dcScaled false).dc = some false := (congrArg Ham.dc hd.1 :)
  have hiff := St.collectRemovals_ok_iff (s.dcScaled false) (s.dcScaled false).exch.keys
  rw [St.setDC_eq hk]
  simp only [Bool.false_eq_true, if_false]
  have hform : (∀ b ∈ s.exch.keys, Canonical b ∨ b.mirror ∈ s.exch.keys) ↔
      ∀ b ∈ (s.dcScaled false).exch.keys, St.keeps b = false → b.mirror ∈ (s.dcScaled false).exch.keys := by
    rw [hex]
    refine forall_congr' fun b => forall_congr' fun _ => ?_
    rw [← keeps_iff]
    cases St.keeps b <;> simp
  rw [hform, ← hiff]
  cases hcr : (s.dcScaled false).collectRemovals (s.dcScaled false).exch.keys with
  | error e =>
    have he := St.collectRemovals_error _ _ _ hcr
    subst he
    have : (s.dcScaled false).ensureNoDC = .raise (s.dcScaled false) .typeError := by simp only [St.ensureNoDC, hcr]
    rw [this]
    exact ⟨by simp, fun _ => ⟨rfl, hdc, hex⟩⟩
  | ok rem =>
    rw [St.ensureNoDC_eq (by rw [hdc]; simp) hcr]
    exact ⟨by simp, fun h => absurd rfl h⟩

/-- No pair of different atoms is lost by a successful assignment. -/
theorem C11_pairs_kept (s : St K) (hk : s.KeysNodup) (hok : (s.setDC false).err = none) (b : Bond)
    (hb : b ∈ s.exch.keys) (hne : b.mirror ≠ b) (hi : b.1.index = b.2.1.index → b.1 = b.2.1) :
    b ∈ (s.setDC false).st.exch.keys ∨ b.mirror ∈ (s.setDC false).st.exch.keys := by
  have hd := St.dcScaled_toHam s false
  have hex : (s.dcScaled false).exch = s.exch := (congrArg Ham.exch hd.1 :)
  have hk1 : (s.dcScaled false).KeysNodup := St.KeysNodup.congr (s := { s with dc := some false }) hd.1 ⟨hk.exch, hk.site⟩
  have hdc : (s.dcScaled false).dc ≠ some true := by rw [(congrArg Ham.dc hd.1 :)]; simp
  have hcl := (C11_exception s hk).1.1 hok b hb
  rw [St.setDC_eq hk] at hok ⊢
  simp only [Bool.false_eq_true, if_false] at hok ⊢
  cases hcr : (s.dcScaled false).collectRemovals (s.dcScaled false).exch.keys with
  | error e => simp [St.ensureNoDC, hcr] at hok
  | ok rem =>
    rw [St.ensureNoDC_eq hdc hcr, Res.st_ok]
    have hm := keeps_mirror hne hi
    rw [← keeps_iff] at hcl
    cases hkb : St.keeps b with
    | true =>
      left
      rw [hkb] at hm
      rw [← St.isSome_valE_iff, St.ensuredNoDC_valE hk1 hcr]
      simp only [hkb, hm, Bool.not_true, reduceCtorEq, Bool.false_eq_true, and_false, or_self, if_false]
      rw [St.isSome_valE_iff, hex]; exact hb
    | false =>
      right
      rw [hkb] at hm hcl
      rw [← St.isSome_valE_iff, St.ensuredNoDC_valE hk1 hcr, Bond.mirror_mirror]
      simp only [hkb, hm, Bool.not_false, reduceCtorEq, Bool.false_eq_true, and_false, or_self, if_false]
      rw [St.isSome_valE_iff, hex]
      simpa using hcl

open NotationExample HistoryExample in
/-- **C11 is false of the code**: a single bond in the other orientation raises `TypeError` (hamiltonian.py 354)
and stays, with `double_counting` already `False`. -/
theorem C11_canonical_false :
    ∃ s : St ℚ, s.KeysNodup ∧ (s.setDC false).err = some .typeError ∧ (s.setDC false).st.dc = some false ∧
      ∃ b ∈ (s.setDC false).st.exch.keys, ¬ Canonical b := by
  refine ⟨runOps wrongSide s0, (runOps_inv _ s0 (St.inv_empty _ _ _ _)).nodup, by decide +kernel, by decide +kernel,
    (fe1, fe2, (-1, 0, 0)), by decide +kernel, ?_⟩
  rw [← keeps_iff]
  decide +kernel

open DictExample in
/-- A state on which the assignment succeeds and removes two of four bonds. -/
example : s1.KeysNodup ∧ (s1.setDC false).err = none ∧ s1.exch.length = 4 ∧ (s1.setDC false).st.exch.length = 2 :=
  ⟨s1_inv.nodup, by decide +kernel, by decide +kernel, by decide +kernel⟩

/-! ### C12 -/

/-- **C12, what is provable (`True`).** If mirrors carry the transposed matrix, assigning `True` when it is `True`
already changes no bond and no matrix.  This holds for every history of good calls (C10).

Missing for the full property: pairs that contradict each other, see `C12_no_op_false`. -/
theorem C12_true_partial (s : St K) (hi : s.Inv) (ha : s.Alloc) (hn : s.NoShare) (hc : s.Cons) (hdc : s.dc = some true) :
    ∃ t, s.setDC true = .ok t ∧ t.toHam = { s.toHam with exch := t.exch } ∧ (∀ b, t.valE b = s.valE b) ∧
      ∀ a, t.valO a = s.valO a := by
  obtain ⟨t, ht, hh, _, _, _, _, _, hv, hv'⟩ := St.setDC_ok hi.nodup hi.refer ha hn true (fun h => by cases h)
  refine ⟨t, ht, ?_, fun b => ?_, hv'⟩
  · rw [hh, ← hdc]
  · rw [hv, hdc]
    simp only [St.dcMap, St.dcFactor, if_true, Option.some.injEq, and_false, if_false, Bool.true_eq_false,
      false_and, one_smul, Option.map_id']
    cases hm : s.valE b.mirror with
    | none => simp
    | some m =>
      have hmem : b.mirror ∈ s.exch.keys := St.isSome_valE_iff.1 (by rw [hm]; rfl)
      have hb := hi.closed hdc _ hmem
      rw [Bond.mirror_mirror] at hb
      obtain ⟨m', hm'⟩ := Option.isSome_iff_exists.1 (St.isSome_valE_iff.2 hb)
      have := hc b.mirror m m' hm (by rw [Bond.mirror_mirror]; exact hm')
      rw [hm', this]
      simp

/-- **C12, what is provable (`False`).** If only canonical bonds without self bonds are stored, assigning `False` when
it is `False` already changes nothing. -/
theorem C12_false_partial (s : St K) (hs : s.WellFormed) (hdc : s.dc = some false) :
    ∃ t, s.setDC false = .ok t ∧ t.toHam = { s.toHam with exch := t.exch } ∧ (∀ b, t.valE b = s.valE b) ∧
      ∀ a, t.valO a = s.valO a := by
  obtain ⟨t, ht, hh, _, _, hv, hv'⟩ := St.setDC_wf hs hdc false
  refine ⟨t, ht, ?_, fun b => ?_, hv'⟩
  · rw [hh, ← hdc]
  · rw [hv, St.dcMap_wf hs hdc]

open HistoryExample NotationExample in
/-- **C12 is false of the code**: after a bond was added twice the pair is contradictory, and assigning `True`
again exchanges the values; without double counting a non-canonical bond raises. -/
theorem C12_no_op_false :
    ((runOps reAdd s0).dc = some true ∧
      (((runOps reAdd s0).setDC true).st.valE (fe1, fe2, (1, 0, 0))).map (fun M => M 0 1) = some 2 ∧
      ((runOps reAdd s0).valE (fe1, fe2, (1, 0, 0))).map (fun M => M 0 1) = some 0) ∧
    ((runOps wrongSide s0).dc = some false ∧ ((runOps wrongSide s0).setDC false).err = some .typeError) := by
  decide +kernel

open DictExample NotationExample in
example : s1.Inv ∧ s1.Alloc ∧ s1.NoShare ∧ s1.Cons ∧ s1.dc = some true ∧ s1.exch.length = 4 := by
  refine ⟨s1_inv, s1_alloc, s1_wf.1.noShare, fun b m m' h h' => ?_, by decide +kernel, by decide +kernel⟩
  rw [s1_wf.1.twice (by decide +kernel) b, h] at h'
  exact (Option.some.inj h').symm

/-! ### C13 -/

namespace St

/-- Under how many bonds the object is stored. -/
def uses (s : St K) (r : ℕ) : ℕ := (s.exch.filter fun p => p.2 = r).length

end St

/-- **C13, exact law.** Changing `exchange_factor` from `c` to `c'` multiplies the matrix of every object by
`c/c'` once *for every bond under which it is stored*. -/
theorem C13_exact_law [DecidableEq K] (s : St K) (hk : s.KeysNodup) (c c' : K) (hc : s.ef = some c) (hne : c ≠ c')
    (h0 : c' ≠ 0) :
    ∃ t, s.setEF c' = .ok t ∧ t.exch = s.exch ∧ t.onSite = s.onSite ∧
      ∀ r, t.cell r = (c / c') ^ s.uses r • s.cell r := by
  have hf := St.foldl_wr_frame (fun _ : Bond => c / c') s.exch s
  refine ⟨{ (s.exch.foldl (St.wr fun _ => c / c') s) with ef := some c' }, ?_, (congrArg Ham.exch hf.1 :),
    (congrArg Ham.onSite hf.1 :), fun r => ?_⟩
  · simp only [St.setEF, hc, ne_eq, hne, not_false_eq_true, if_true]
    rw [St.scaleExch_ok hk.exch (fun _ => c / c') (fun b hb t ht => by simp [St.ratio, h0])]
    rfl
  · change (s.exch.foldl (St.wr fun _ => c / c') s).cell r = _
    rw [St.foldl_wr_cell]
    congr 1
    rw [List.map_const', List.prod_replicate, St.uses]

/-- **C13, what is provable.** If no parameter object is stored twice, every stored value is rescaled exactly once,
by the factor that belongs to it: `c/c'` for the factors, products of spins or their inverses for spin
normalisation, `2` or `1/2` for double counting (of well-formed Hamiltonians).

Missing for the full property: shared objects, for which `C13_exact_law` holds instead, see `C13_shared_false`. -/
theorem C13_once_partial [DecidableEq K] (s : St K) (hs : s.Sound) :
    (∀ c c', s.ef = some c → c' ≠ 0 → ∃ t, s.setEF c' = .ok t ∧
      (∀ b, t.valE b = (s.valE b).map fun J => (c / c') • J) ∧ ∀ a, t.valO a = s.valO a) ∧
    (∀ c c', s.osf = some c → c' ≠ 0 → ∃ t, s.setOF c' = .ok t ∧
      (∀ b, t.valE b = s.valE b) ∧ ∀ a, t.valO a = (s.valO a).map fun J => (c / c') • J) ∧
    (∀ sp, s.Spins sp → s.sn = some true → ∃ t, s.setSN false = .ok t ∧
      (∀ b, t.valE b = (s.valE b).map fun J => (1 / (sp b.1 * sp b.2.1)) • J) ∧
      ∀ a, t.valO a = (s.valO a).map fun J => (1 / (sp a * sp a)) • J) ∧
    (∀ sp, s.Spins sp → s.sn = some false → ∃ t, s.setSN true = .ok t ∧
      (∀ b, t.valE b = (s.valE b).map fun J => (sp b.1 * sp b.2.1) • J) ∧
      ∀ a, t.valO a = (s.valO a).map fun J => (sp a * sp a) • J) ∧
    (s.WellFormed → s.dc = some true → ∃ t, s.setDC false = .ok t ∧
      (∀ b J, t.valE b = some J ↔ Canonical b ∧ ∃ J₀, s.valE b = some J₀ ∧ J = (2 : K) • J₀) ∧
      ∀ a, t.valO a = s.valO a) ∧
    (s.WellFormed → s.dc = some false → ∃ t, s.setDC true = .ok t ∧
      (∀ b J, s.valE b = some J → t.valE b = some ((1 / 2 : K) • J) ∧ t.valE b.mirror = some ((1 / 2 : K) • J.transpose)) ∧
      (∀ b, b ∈ t.exch.keys → b ∈ s.exch.keys ∨ b.mirror ∈ s.exch.keys) ∧ ∀ a, t.valO a = s.valO a) := by
  refine ⟨fun c c' h h0 => ?_, fun c c' h h0 => ?_, fun sp hsp h => ?_, fun sp hsp h => ?_, fun hw h => ?_,
    fun hw h => ?_⟩
  · obtain ⟨t, ht, hsc, _⟩ := St.setEF_scaled hs.keys hs.noShare h0
    refine ⟨t, ht, fun b => ?_, fun a => ?_⟩
    · rw [hsc.valE, h]; rfl
    · rw [hsc.valO]; simp
  · obtain ⟨t, ht, hsc, _⟩ := St.setOF_scaled hs.keys hs.noShare h0
    refine ⟨t, ht, fun b => ?_, fun a => ?_⟩
    · rw [hsc.valE]; simp
    · rw [hsc.valO, h]; rfl
  · obtain ⟨t, ht, hsc, _⟩ := St.setSN_scaled hs.keys hs.refer hs.noShare hsp false
    refine ⟨t, ht, fun b => ?_, fun a => ?_⟩
    · rw [hsc.valE, h]; simp [St.snW, weight, mul_comm]
    · rw [hsc.valO, h]; simp [St.snW, weight]
  · obtain ⟨t, ht, hsc, _⟩ := St.setSN_scaled hs.keys hs.refer hs.noShare hsp true
    refine ⟨t, ht, fun b => ?_, fun a => ?_⟩
    · rw [hsc.valE, h]; simp [St.snW, weight]
    · rw [hsc.valO, h]; simp [St.snW, weight]
  · obtain ⟨t, ht, _, _, _, hv, hv'⟩ := St.setDC_wf hw h false
    refine ⟨t, ht, fun b J => ?_, hv'⟩
    rw [hv, St.dcMap_wf hw h, ← keeps_iff]
    cases St.keeps b <;> simp [eq_comm]
  · obtain ⟨t, ht, _, _, _, hv, hv'⟩ := St.setDC_wf hw h true
    refine ⟨t, ht, fun b J hJ => ?_, fun b hb => ?_, hv'⟩
    · have hb : b ∈ s.exch.keys := St.isSome_valE_iff.1 (by rw [hJ]; rfl)
      have hm := St.valE_eq_none_iff.2 (St.mirror_notMem hw h hb)
      rw [hv, hv, St.dcMap_wf hw h, St.dcMap_wf hw h]
      simp only [Bond.mirror_mirror, hm, hJ]
      simp
    · by_contra hno
      rw [not_or, ← St.valE_eq_none_iff, ← St.valE_eq_none_iff] at hno
      rw [← St.isSome_valE_iff, hv, St.dcMap_wf hw h] at hb
      simp [hno.1, hno.2] at hb

open HistoryExample in
/-- **C13 is false of the code** for one object under two bonds: from factor 1 to 2 the bond is multiplied by
`1/4` and not by `1/2`. -/
theorem C13_shared_false :
    ∃ s : St ℚ, s.ef = some 1 ∧ (s.setEF 2).err = none ∧
      (s.valE (fe1, fe2, (1, 0, 0))).map (fun M => M 0 1) = some 2 ∧
      ((s.setEF 2).st.valE (fe1, fe2, (1, 0, 0))).map (fun M => M 0 1) = some (1 / 2) :=
  ⟨runOps (shared.take 5) s0, by decide +kernel⟩

open DictExample NotationExample in
example : s1.Sound ∧ s1.ef = some (-1) ∧ s1.osf = some (-1) ∧ s1.sn = some true ∧ s1.dc = some true ∧ s1.uses 0 = 0 :=
  ⟨s1_wf.1.toSound, by decide +kernel⟩

end Magnopy
