import Verif.Lemmas.RoundingExact
import Verif.Props.HamNotation
import Mathlib.Tactic.FinCases

/-!
# Property C98: round-off of changes of the notation
-/

set_option autoImplicit false

set_option linter.unusedSectionVars false

namespace Magnopy

variable {K : Type*} [Field K] [LinearOrder K] [IsStrictOrderedRing K] {fl : K → K} {u : K}

/-- **C98, values.** Floats are rounded after every product and quotient.  Any sequence of assignments to the notation and its
attributes on a Hamiltonian whose parameters are objects of their own gives the same bonds, on-site terms, atoms and notation as
exact arithmetic, and every stored number is the exact one times a factor between `(1 - u) ^ n` and `1 / (1 - u) ^ n`, where `n`
counts the roundings: per assignment one for `double_counting`, two for each of the other attributes. -/
theorem C98_values (hf : IsRounding fl u) (s : St K) (hs : s.Sound) (ops : List (Op K)) (hops : ∀ o ∈ ops, o.Renotes) :
    (runFl fl ops s).toHam = (runOps ops s).toHam ∧
    (∀ b x, (runOps ops s).valE b = some x → ∃ y, (runFl fl ops s).valE b = some y ∧
      ∀ i j, Rounded u (ops.map Op.roundE).sum (x i j) (y i j)) ∧
    ∀ a x, (runOps ops s).valO a = some x → ∃ y, (runFl fl ops s).valO a = some y ∧
      ∀ i j, Rounded u (ops.map Op.roundO).sum (x i j) (y i j) := by
  have h := St.run_near hf ops hops (St.Near.refl (u := u) hs)
  rw [zero_add, zero_add] at h
  exact ⟨h.ham, h.valE, h.valO⟩

/-- **C98, exceptions.** Rounding changes no exception. -/
theorem C98_exceptions (hf : IsRounding fl u) (s : St K) (hs : s.Sound) (ops : List (Op K)) (hops : ∀ o ∈ ops, o.Renotes) (op : Op K)
    (hop : op.Renotes) : (op.stepFl fl (runFl fl ops s)).err = (op.step (runOps ops s)).err :=
  (St.step_near hf op hop (St.run_near hf ops hops (St.Near.refl (u := u) hs))).1

/-- **C98, round trips.** After a sequence of assignments that ends in the notation of the start every number of a well-formed
Hamiltonian is restored up to the relative error `n u / (1 - n u)` of its `n` roundings; zeros are restored exactly. -/
theorem C98_round_trip (hf : IsRounding fl u) (s : St K) (sp : Atom → K) (hs : s.WellFormed) (hsp : s.Spins sp) (hc : s.Complete)
    (ops : List (Op K)) (hops : ∀ o ∈ ops, o.Renotes) (hback : (runFl fl ops s).getNotation = s.getNotation) :
    (∀ b x, s.valE b = some x → ∃ y, (runFl fl ops s).valE b = some y ∧ ∀ i j, (x i j = 0 → y i j = 0) ∧
      ((ops.map Op.roundE).sum * u < 1 → |y i j - x i j| ≤ gamma u (ops.map Op.roundE).sum * |x i j|)) ∧
    ∀ a x, s.valO a = some x → ∃ y, (runFl fl ops s).valO a = some y ∧ ∀ i j, (x i j = 0 → y i j = 0) ∧
      ((ops.map Op.roundO).sum * u < 1 → |y i j - x i j| ≤ gamma u (ops.map Op.roundO).sum * |x i j|) := by
  obtain ⟨h1, h2, h3⟩ := C98_values hf s hs.toSound ops hops
  have hn : (runOps ops s).getNotation = s.getNotation := by
    rw [← hback]
    unfold St.getNotation
    rw [h1]
  have hr := C06_round_trip two_ne_zero s sp hs hsp hc ops hops hn
  refine ⟨fun b x hx => ?_, fun a x hx => ?_⟩
  · obtain ⟨y, hy, hxy⟩ := h2 b x (by rw [hr.1, hx])
    exact ⟨y, hy, fun i j => ⟨fun e => (e ▸ hxy i j : Rounded u _ 0 (y i j)).zero, fun hu => (hxy i j).error hf.nonneg hf.lt hu⟩⟩
  · obtain ⟨y, hy, hxy⟩ := h3 a x (by rw [hr.2, hx])
    exact ⟨y, hy, fun i j => ⟨fun e => (e ▸ hxy i j : Rounded u _ 0 (y i j)).zero, fun hu => (hxy i j).error hf.nonneg hf.lt hu⟩⟩

/-- **C98, energies.** For a Hamiltonian whose bonds are stored as its notation says, rounding in any sequence of assignments to the
notation changes the classical energy of every configuration of every supercell at most by the relative errors of the roundings
times the sums of the absolute values of the terms. -/
theorem C98_energy {Γ : Type*} [AddCommGroup Γ] [Fintype Γ] (hf : IsRounding fl u) (s : St K) (sp : Atom → K) (hs : s.Paired)
    (hsp : s.Spins sp) (hc : s.Complete) (ops : List (Op K)) (hops : ∀ o ∈ ops, o.Renotes)
    (hE : (ops.map Op.roundE).sum * u < 1) (hO : (ops.map Op.roundO).sum * u < 1) (c : Config K Γ) :
    ∃ d n e o E E', (runFl fl ops s).getNotation = .ok (d, n, e, o) ∧ s.physics c sp = some E ∧
      (runFl fl ops s).physics c sp = some E' ∧
      |E' - E| ≤ gamma u (ops.map Op.roundE).sum * (runOps ops s).exchSize c n sp e +
        gamma u (ops.map Op.roundO).sum * (runOps ops s).siteSize c n sp o := by
  have h := St.run_near hf ops hops (St.Near.refl (u := u) hs.toSound)
  rw [zero_add, zero_add] at h
  have hk := St.run_kept (Γ := Γ) two_ne_zero ops hops hs hsp hc
  obtain ⟨d, n, e, o, hn, _, _⟩ := hk.complete
  have hn' : (runFl fl ops s).getNotation = .ok (d, n, e, o) := by
    rw [← hn]
    unfold St.getNotation
    rw [h.ham]
  refine ⟨d, n, e, o, _, _, hn', (hk.physics c).symm.trans (St.physics_eq hn c sp), St.physics_eq hn' c sp, ?_⟩
  have h1 := h.exch_error hf.nonneg hf.lt hE c n sp e
  have h2 := h.site_error hf.nonneg hf.lt hO c n sp o
  rw [add_sub_add_comm]
  exact (abs_add_le _ _).trans (add_le_add h1 h2)

/-- **C98, exact changes.** With binary rounding nothing at all is rounded if the old and new factors are powers of two (as in the four
predefined notations) and `spin_normalized` is not changed or the spins are powers of two: the program with rounding gives the same state as exact arithmetic, bit by bit. -/
theorem C98_exact (hb : IsBinary fl) (s : St K) (hfl : ∀ r i j, fl (s.cell r i j) = s.cell r i j)
    (he : ∀ x, s.ef = some x → Dyadic x) (ho : ∀ x, s.osf = some x → Dyadic x) (ops : List (Op K))
    (h : ((∀ a x, s.spin a = some x → Dyadic x) ∧ ∀ op ∈ ops, op.NoRounding True false) ∨
      ∃ n0, s.sn = some n0 ∧ ∀ op ∈ ops, op.NoRounding False n0) :
    runFl fl ops s = runOps ops s := by
  rcases h with ⟨h1, h2⟩ | ⟨n0, h1, h2⟩
  · exact (St.run_same hb ops h2 ⟨hfl, he, ho, fun _ => h1, .inl trivial⟩).1
  · exact (St.run_same hb ops h2 ⟨hfl, he, ho, False.elim, .inr h1⟩).1

/-- The predefined notations have factors that are powers of two. -/
theorem C98_predefined (name : String) (n0 : Bool) (h : ∀ q : Bool × Bool × K × K, (St.NotationArg.str name).Means q → q.2.1 = n0) :
    (Op.setNotation (.str name) : Op K).NoRounding False n0 := by
  intro q hq
  refine ⟨.inr (h q hq), ?_⟩
  rcases hq with ⟨_, rfl⟩ | ⟨_, rfl⟩ | ⟨_, rfl⟩ | ⟨_, rfl⟩
  · exact ⟨.half, .one⟩
  · exact ⟨⟨0, .inr (by simp)⟩, ⟨0, .inr (by simp)⟩⟩
  · exact ⟨.one, .one⟩
  · exact ⟨⟨-1, .inr (by simp)⟩, ⟨0, .inr (by simp)⟩⟩

/-- Rounding to `p` binary digits, as Python does with `p = 53`, is a rounding in the sense of these theorems. -/
theorem C98_binary {p : ℕ} (hp : 0 < p) : IsRounding (binary p) (2 ^ (-p : ℤ)) ∧ IsBinary (binary p) :=
  ⟨binary_rounding hp, binary_binary hp⟩

namespace RoundingExample

open HistoryExample DictExample IterExample NotationExample

/-- To the factor 3 and back. -/
def trip : List (Op ℚ) := [.setEF 3, .setEF (-1)]

theorem trip_renotes : ∀ o ∈ trip, o.Renotes := by
  intro o ho
  simp only [trip, List.mem_cons, List.not_mem_nil, or_false] at ho
  rcases ho with rfl | rfl
  · change (3 : ℚ) ≠ 0; norm_num
  · change (-1 : ℚ) ≠ 0; norm_num

/-- The Hamiltonian of the other examples, without objects that it does not use. -/
def ham : St ℚ := { s1 with cell := fun r => if r < 9 then s1.cell r else 0 }

theorem ham_valE (b : Bond) : ham.valE b = s1.valE b := by
  show (s1.exch.get? b).map (fun r => if r < 9 then s1.cell r else 0) = (s1.exch.get? b).map s1.cell
  cases h : s1.exch.get? b with
  | none => rfl
  | some r =>
    have : r < 9 := lt_of_lt_of_eq (s1_alloc.exch b r h) (by decide +kernel)
    simp [this]

theorem ham_wf : ham.WellFormed where
  keys := ⟨s1_wf.1.keys.exch, s1_wf.1.keys.site⟩
  refer := ⟨s1_wf.1.refer.exch, s1_wf.1.refer.site⟩
  alloc := ⟨s1_wf.1.alloc.exch, s1_wf.1.alloc.site⟩
  noShare := ⟨s1_wf.1.noShare.exch, s1_wf.1.noShare.site, s1_wf.1.noShare.cross⟩
  index := s1_wf.1.index
  noSelf := s1_wf.1.noSelf
  twice := fun h b => by rw [ham_valE, ham_valE]; exact s1_wf.1.twice h b
  once := s1_wf.1.once

theorem ham_floats (r : ℕ) (i j : Fin 3) : binary 53 (ham.cell r i j) = ham.cell r i j := by
  rcases lt_or_ge r 9 with hr | hr
  · have : ∀ r : Fin 9, ∀ i j : Fin 3, binary 53 (ham.cell r i j) = ham.cell r i j := by
      intro r i j
      fin_cases r <;> fin_cases i <;> fin_cases j <;> decide +kernel
    exact this ⟨r, hr⟩ i j
  · have : ham.cell r = 0 := if_neg (by omega)
    rw [this]
    rfl

/-- The hypotheses of the first theorems hold, with 53 binary digits and four roundings of each exchange parameter. -/
example : ham.WellFormed ∧ ham.Spins (fun _ => 5 / 2) ∧ ham.Complete ∧ IsRounding (binary 53) (2 ^ (-(53 : ℕ) : ℤ)) ∧
    (∀ o ∈ trip, o.Renotes) ∧ (runFl (binary 53) trip ham).getNotation = ham.getNotation ∧
    (trip.map Op.roundE).sum = 4 ∧ (((trip.map Op.roundE).sum : ℕ) : ℚ) * 2 ^ (-(53 : ℕ) : ℤ) < 1 :=
  ⟨ham_wf, s1_wf.2, s1_complete, (C98_binary (by norm_num)).1, trip_renotes, by decide +kernel, rfl, by
    rw [show (trip.map Op.roundE).sum = 4 from rfl]
    norm_num⟩

/-- Ways between predefined notations with the same normalisation, and double counting off and on. -/
def plain : List (Op ℚ) := [.setNotation (.str "Vampire"), .setDC false, .setEF 8, .setNotation (.str "tb2j")]

/-- The hypotheses of `C98_exact` hold; the numbers do change on the way. -/
example : runFl (binary 53) plain ham = runOps plain ham ∧ ham.valE (fe1, fe2, (1, 0, 0)) ≠
    (runFl (binary 53) (plain.take 3) ham).valE (fe1, fe2, (1, 0, 0)) := by
  have pre : ∀ name : String, name.toLower = "tb2j" ∨ name.toLower = "vampire" → ∀ q : Bool × Bool × ℚ × ℚ,
      (St.NotationArg.str name).Means q → q.2.1 = true := by
    rintro name hn q (⟨h, rfl⟩ | ⟨h, rfl⟩ | ⟨h, rfl⟩ | ⟨h, rfl⟩)
    · rcases hn with hn | hn <;> rw [h] at hn <;> exact absurd hn (by decide)
    · rfl
    · rcases hn with hn | hn <;> rw [h] at hn <;> exact absurd hn (by decide)
    · rfl
  refine ⟨C98_exact (C98_binary (by norm_num)).2 ham ham_floats (fun x hx => ?_) (fun x hx => ?_) plain
    (.inr ⟨true, by decide +kernel, fun op hop => ?_⟩), by decide +kernel⟩
  · have : ham.ef = some (-1) := by decide +kernel
    rw [this] at hx
    cases hx
    exact ⟨0, .inr (by simp)⟩
  · have : ham.osf = some (-1) := by decide +kernel
    rw [this] at hx
    cases hx
    exact ⟨0, .inr (by simp)⟩
  · simp only [plain, List.mem_cons, List.not_mem_nil, or_false] at hop
    rcases hop with rfl | rfl | rfl | rfl
    · exact C98_predefined _ _ (pre _ (.inr (by decide +kernel)))
    · trivial
    · exact ⟨3, .inl (by norm_num)⟩
    · exact C98_predefined _ _ (pre _ (.inl (by decide +kernel)))

end RoundingExample

open HistoryExample DictExample IterExample NotationExample RoundingExample in
/-- A round trip does not restore the numbers bit by bit: with 53 binary digits the factors -1, 3, -1 change a stored number. -/
theorem C98_bits_false : ¬ ∀ (s : St ℚ) (sp : Atom → ℚ), s.WellFormed → s.Spins sp → s.Complete → ∀ ops : List (Op ℚ),
    (∀ o ∈ ops, o.Renotes) → (∀ r i j, binary 53 (s.cell r i j) = s.cell r i j) →
    (runFl (binary 53) ops s).getNotation = s.getNotation → ∀ b, (runFl (binary 53) ops s).valE b = s.valE b := by
  intro h
  have := h ham _ ham_wf s1_wf.2 s1_complete trip trip_renotes ham_floats (by decide +kernel) (fe1, fe2, (1, 0, 0))
  revert this
  decide +kernel

end Magnopy
