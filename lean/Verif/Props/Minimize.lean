import Verif.Lemmas.MinimizeSummary
import Verif.Lemmas.MinimizeHistory
import Verif.Props.EnergyFerro
import Verif.Props.Optimize
import Verif.Props.OptExample
import Verif.Lemmas.Wave

/-!
# C68: the report of `magnopy-minimize-energy`
-/

set_option autoImplicit false

set_option linter.unusedSectionVars false

namespace Magnopy.Minimize

open Optimize EnergyObj

variable {env : Env}

theorem selected_list {gs : List Str} (h : ∀ g ∈ gs, g ∈ allTypes) : selected (.list gs) = .ok gs := by
  have : Str.lit "all" ∉ gs := fun hm => absurd (h _ hm) (by decide)
  simp [selected, this]

theorem manager_ok {arg : GsArg} {gs : List Str} (hs : selected arg = .ok gs) (h : env.AllOk 0 (jobs env.recip gs)) :
    ∃ w l, manager env arg = some (w, match (summary gs (vals env gs 0)).2 with | some e => .error e | none => .ok ()) ∧
      w.recs = l ++ (summary gs (vals env gs 0)).1 ∧ ∀ r ∈ l, ¬ r.InSummary := by
  obtain ⟨f, l, h1, h2⟩ := collect_ok gs [] {} h
  refine ⟨World.write ⟨[] ++ l, f, 0 + (jobs env.recip gs).length⟩ (summary gs (vals env gs 0)).1, l, ?_, ?_, h2⟩
  · rw [manager, hs]
    simp only
    rw [h1]
    simp only [Run.andThen, List.nil_append]
    rfl
  · simp [World.write]

/-- **C68 (nothing is skipped).** If the script ends without an exception, every minimisation of the requested types
was made and succeeded. -/
theorem C68_only_if {arg : GsArg} {gs : List Str} (hs : selected arg = .ok gs) {w : World}
    (h : manager env arg = some (w, .ok ())) : env.AllOk 0 (jobs env.recip gs) := by
  rw [manager, hs] at h
  obtain ⟨w1, es, h1, -⟩ := andThen_ok h
  exact collect_inv gs [] {} h1

theorem collect_plain (gs : List Str) (hg : ∀ g ∈ gs, Plain g) (es : List Val) (w : World)
    (h : env.AllOk w.calls (jobs env.recip gs)) :
    ∃ f, collect env gs es w = some (⟨w.recs ++ (gs.mapIdx fun i g => env.block g (w.calls + i)).flatten, f,
      w.calls + gs.length⟩, .ok (es ++ vals env gs w.calls)) := by
  induction gs generalizing es w with
  | nil => exact ⟨w.files, by simp [collect, vals]⟩
  | cons g gs ih =>
    rw [jobs_cons, allOk_append, (hg g (by simp)).one] at h
    have hv := vals_cons (env := env) (hg g (by simp)).mem gs w.calls
    rw [(hg g (by simp)).one] at hv
    have step : ∀ (x : ℝ) (f0 : PyDict HistFile (List (List (List (Record ConeX))))), valOf env g w.calls = .num x →
        ∃ f, collect env gs (es ++ [.num x]) ⟨w.recs ++ env.block g w.calls, f0, w.calls + 1⟩ =
          some (⟨w.recs ++ ((g :: gs).mapIdx fun i g => env.block g (w.calls + i)).flatten, f,
            w.calls + (g :: gs).length⟩, .ok (es ++ vals env (g :: gs) w.calls)) := by
      intro x f0 hx
      obtain ⟨f, hf⟩ := ih (fun g' h' => hg g' (by simp [h'])) (es ++ [.num x])
        ⟨w.recs ++ env.block g w.calls, f0, w.calls + 1⟩ h.2
      refine ⟨f, ?_⟩
      rw [hf, hv, hx]
      simp [List.mapIdx_cons, Nat.add_assoc, Nat.add_comm 1]
    rw [collect]
    rcases hg g (by simp) with rfl | rfl
    · rw [jobsOf_ferro, allOk_cons] at h
      obtain ⟨f0, hf0⟩ := ferro_ok h.1.1
      rw [if_pos rfl, hf0]
      exact step _ f0 (by simp [valOf])
    · rw [jobsOf_spiral, allOk_cons] at h
      obtain ⟨f0, hf0⟩ := spiral_ok h.1.1
      rw [if_neg ne_sf, if_neg ne_sa, if_pos rfl, hf0]
      exact step _ f0 (by simp [valOf, ne_sf, ne_sa])

/-- **C68** as claimed: for all types which may be requested, if every minimisation succeeds then the script ends
without an exception, and the summary lists the energies of the states found, in the order of the types. -/
def C68_statement (T : Str → Prop) : Prop :=
  ∀ (env : Env) (gs : List Str), (∀ g ∈ gs, g ∈ allTypes ∧ T g) → env.AllOk 0 (jobs env.recip gs) →
    ∃ w l, manager env (.list gs) = some (w, .ok ()) ∧ w.recs = l ++ .summary :: env.expected gs 0 ∧
      ∀ r ∈ l, ¬ r.InSummary

/-- **C68, without the antiferro case.**

Missing for the full property: the antiferro case, for which it is false of the code, see `C68_antiferro`. -/
theorem C68_summary_partial : C68_statement fun g => g ≠ Str.lit "antiferro" := by
  intro env gs hg h
  have hp : ∀ g ∈ gs, Plain g := by
    intro g hm
    rcases mem_allTypes.mp (hg g hm).1 with h | h | h
    · exact Or.inl h
    · exact absurd h (hg g hm).2
    · exact Or.inr h
  obtain ⟨w, l, h1, h2, h3⟩ := manager_ok (selected_list fun g hm => (hg g hm).1) h
  rw [summary_plain hp] at h1 h2
  exact ⟨w, l, h1, h2, h3⟩

/-- **C68 (tables).** For the ferro and spiral cases the report of every minimisation lists all magnetic atoms with the
directions found, then the cone axis and the spiral vector. -/
theorem C68_tables (gs : List Str) (hg : ∀ g ∈ gs, Plain g) (h : env.AllOk 0 (jobs env.recip gs)) :
    ∃ w, manager env (.list gs) = some (w, .ok ()) ∧
      w.recs = (gs.mapIdx fun i g => env.block g i).flatten ++ .summary :: env.expected gs 0 := by
  obtain ⟨f, hf⟩ := collect_plain gs hg [] {} h
  rw [manager, selected_list fun g hm => (hg g hm).mem]
  simp only
  rw [hf]
  simp only [Run.andThen, List.nil_append]
  rw [summary_plain hg]
  refine ⟨_, rfl, ?_⟩
  simp [World.write]

/-- **C68 is false of the code** whenever the antiferro case is requested (after fewer than 26 others): if all
minimisations succeed, the script writes the energies of the other cases before it also as energies of the antiferro
case, and ends with a `TypeError` (line 213 formats an element of the wrong list). -/
theorem C68_antiferro (p r : List Str) (hp : ∀ g ∈ p, Plain g) (hr : ∀ g ∈ r, g ∈ allTypes) (hlen : p.length < 26)
    (h : env.AllOk 0 (jobs env.recip (p ++ Str.lit "antiferro" :: r))) :
    ∃ w l, manager env (.list (p ++ Str.lit "antiferro" :: r)) = some (w, .error .typeError) ∧
      w.recs = l ++ .summary :: (env.expected p 0 ++ .antiferroTitle ::
        (env.energies 0 (jobs env.recip p)).mapIdx fun k x => .antiferro (k + 1) x) ∧
      ∀ r ∈ l, ¬ r.InSummary := by
  have hs : selected (.list (p ++ Str.lit "antiferro" :: r)) = .ok (p ++ Str.lit "antiferro" :: r) := by
    apply selected_list
    intro g hg
    rcases List.mem_append.mp hg with hg | hg
    · exact (hp g hg).mem
    · rcases List.mem_cons.mp hg with rfl | hg
      · simp [allTypes]
      · exact hr g hg
  obtain ⟨w, l, h1, h2, h3⟩ := manager_ok hs h
  rw [summary_antiferro hp hr hlen] at h1 h2
  exact ⟨w, l, h1, h2, h3⟩

/-- **C68 is false of the code**, whatever the minimisations do: with the antiferro case the script never ends without
an exception. -/
theorem C68_antiferro_never (p r : List Str) (hp : ∀ g ∈ p, Plain g) (hr : ∀ g ∈ r, g ∈ allTypes) (hlen : p.length < 26)
    {arg : GsArg} (hs : selected arg = .ok (p ++ Str.lit "antiferro" :: r)) (w : World) :
    manager env arg ≠ some (w, .ok ()) := by
  intro hw
  obtain ⟨w', l, h1, -⟩ := manager_ok hs (C68_only_if hs hw)
  rw [summary_antiferro hp hr hlen] at h1
  rw [h1] at hw
  cases hw

/-- **C68 is false of the code** for the default of the command line, `"all"`: whatever the Hamiltonian is, the script
never ends without an exception. -/
theorem C68_all (order : List Atom → List Atom) (lat recip : M3 ℝ) (pos : Atom → V3 ℝ) (g : Atom → ℝ) (muB : ℝ)
    (rnd : ℕ → Random) (fuel : ℕ) (s : St ℝ) (field : Option (V3 ℝ)) (w : World) :
    script order lat recip pos g muB rnd fuel s field (.str (Str.lit "all")) ≠ some (w, .ok ()) := by
  unfold script
  split
  · intro h; cases h
  · refine C68_antiferro_never [Str.lit "ferro"] [Str.lit "spiral"] ?_ ?_ (by decide) ?_ w
    · simp [Plain]
    · simp [allTypes]
    · rw [selected, if_pos (by decide)]
      rfl

/-- **C68 (default of the function).** `manager` without `ground_state_type` raises. -/
theorem C68_none : manager env .none = some ({}, .error .typeError) := rfl

/-- **C68 (wrong energies).** Every line of the summary which claims to be the energy of an antiferro state shows the
energy of a state of the ferro or spiral case. -/
theorem C68_mislabelled {arg : GsArg} {gs : List Str} (hs : selected arg = .ok gs) (h : env.AllOk 0 (jobs env.recip gs))
    {w : World} {res : Except PyErr Unit} (hw : manager env arg = some (w, res)) {n : ℕ} {x : ℝ}
    (hx : Rec.antiferro n x ∈ w.recs) :
    ∃ i, ((jobs env.recip gs)[i]? = some .ferro ∧ x = env.en .ferro i) ∨
      ((jobs env.recip gs)[i]? = some .spiral ∧ x = env.en .spiral i) := by
  obtain ⟨w', l, h1, h2, h3⟩ := manager_ok hs h
  rw [h1] at hw
  simp only [Option.some.injEq, Prod.mk.injEq] at hw
  obtain ⟨rfl, -⟩ := hw
  rw [h2] at hx
  rcases List.mem_append.mp hx with hx | hx
  · exact absurd trivial (h3 _ hx)
  · obtain ⟨k, -, hk⟩ := summary_mem hx
    have := vals_num hk
    simpa using this

/-- **C68 (history files).** With at least one magnetic atom, all 26 minimisations of the antiferro case share the three
names with the numbers 1, `I` and `I + 1` where `I` is the number of magnetic atoms (line 95 reuses the counter `i`): every
minimisation adds its history to the end of the file of its number, the first one to the file 1, the 14th one to the file
`I + 1` and all others to the file `I`.  Other files are left alone. -/
theorem C68_history (hF : env.Full) (hne : env.atoms ≠ []) (w : World)
    (h : env.AllOk w.calls (jobsOf env.recip (Str.lit "antiferro"))) :
    ∃ w', minimizeAntiferro env w = some (w', .ok (env.energies w.calls (jobsOf env.recip (Str.lit "antiferro")))) ∧
      w'.recs = w.recs ++ .start (Str.lit "antiferromagnetic") ::
        (nonzero.mapIdx fun k q => afBlock env q (fileNumber env.atoms.length k) (w.calls + k)).flatten ∧
      ∀ name, content w'.files name = content w.files name ++ (nonzero.mapIdx fun k q =>
        if name = .antiferro (fileNumber env.atoms.length k) then
          [(env.sol (.antiferro (qvec env.recip q)) (w.calls + k)).history] else []).flatten := by
  obtain ⟨f, h1, h2⟩ := loop_all hF hne (w.write [.start (Str.lit "antiferromagnetic")]) h
  refine ⟨_, h1, ?_, h2⟩
  simp [World.write]

/-! ### The 26 vectors -/

theorem bondsOf_lattice {K : Type*} [Field K] {idx : PyDict Atom ℕ} {lat : M3 K} {l : List (Bond × ℕ)}
    {bs : List (ℕ × ℕ × V3 K × ℕ)} (h : bondsOf idx lat l = .ok bs) : ∀ b ∈ bs, ∃ R, b.2.2.1 = lattice lat R := by
  induction l generalizing bs with
  | nil => cases h; simp
  | cons p l ih =>
    rw [bondsOf] at h
    split at h
    · cases h
    · split at h
      · cases h
      · split at h
        · cases h
        · rename_i bs' hb
          cases h
          intro b hm
          rcases List.mem_cons.mp hm with rfl | hm
          · exact ⟨_, rfl⟩
          · exact ih hb b hm

theorem init_lattice {K : Type*} [Field K] [DecidableEq K] {order : List Atom → List Atom} {lat : M3 K} {g : Atom → K}
    {s t : St K} {E : EnergyObj K} (h : EnergyObj.init order lat g s = (.ok E, t)) :
    ∀ b ∈ E.bonds, ∃ R, b.2.2.1 = lattice lat R := by
  unfold EnergyObj.init at h
  split at h
  · cases h
  simp only at h
  split at h
  · cases h
  split at h
  · cases h
  split at h
  · cases h
  split at h
  · cases h
  split at h
  · cases h
  split at h
  · cases h
  rename_i hb
  split at h
  · cases h
  · cases h
    exact bondsOf_lattice hb

theorem phase {lat recip : M3 ℝ} (h : Reciprocal lat recip) (q : V3 ℤ) (R : Cell) :
    dot3 (qvec recip q) (lattice lat R) = ((q 0 * R.1 + q 1 * R.2.1 + q 2 * R.2.2 : ℤ) : ℝ) * Real.pi := by
  have h' := fun i j => h i j
  simp only [Fin.sum_univ_three] at h'
  have h00 := h' 0 0; have h01 := h' 0 1; have h02 := h' 0 2
  have h10 := h' 1 0; have h11 := h' 1 1; have h12 := h' 1 2
  have h20 := h' 2 0; have h21 := h' 2 1; have h22 := h' 2 2
  simp at h00 h01 h02 h10 h11 h12 h20 h21 h22
  simp only [dot3, qvec, lattice]
  push_cast
  linear_combination ((q 0 : ℝ) * R.1 / 2) * h00 + ((q 1 : ℝ) * R.1 / 2) * h01 + ((q 2 : ℝ) * R.1 / 2) * h02 +
    ((q 0 : ℝ) * R.2.1 / 2) * h10 + ((q 1 : ℝ) * R.2.1 / 2) * h11 + ((q 2 : ℝ) * R.2.1 / 2) * h12 +
    ((q 0 : ℝ) * R.2.2 / 2) * h20 + ((q 1 : ℝ) * R.2.2 / 2) * h21 + ((q 2 : ℝ) * R.2.2 / 2) * h22

theorem cos_parity {m n : ℤ} (h : 2 ∣ m - n) : Real.cos (m * Real.pi) = Real.cos (n * Real.pi) := by
  obtain ⟨k, hk⟩ := h
  have : (m : ℝ) * Real.pi = n * Real.pi + k * (2 * Real.pi) := by
    have : (m : ℝ) = n + 2 * k := by exact_mod_cast (by omega : m = n + 2 * k)
    rw [this]; ring
  rw [this, Real.cos_add_int_mul_two_pi]

/-- **C68 (equivalent vectors).** The energy of the antiferro states is the same function of spins and cone axis for two
of the 26 vectors whose coefficients have the same parity. -/
theorem C68_parity {order : List Atom → List Atom} {lat recip : M3 ℝ} {g : Atom → ℝ} {s t : St ℝ} {E : EnergyObj ℝ}
    (hE : EnergyObj.init order lat g s = (.ok E, t)) (hr : Reciprocal lat recip) (muB : ℝ) (cell : ℕ → M3 ℝ)
    {q q' : V3 ℤ} (hq : ∀ i, 2 ∣ q i - q' i) (field : Option (V3 ℝ)) (e : List (V3 ℝ)) (n : V3 ℝ) :
    ({ E with field := field } : EnergyObj ℝ).antiferroUnit muB cell e n (qvec recip q) =
      ({ E with field := field } : EnergyObj ℝ).antiferroUnit muB cell e n (qvec recip q') := by
  have hb := init_lattice hE
  unfold antiferroUnit
  congr 1
  unfold bondSum
  simp only
  congr 1
  apply List.map_congr_left
  rintro ⟨i, j, d, J⟩ hm
  obtain ⟨R, hR⟩ := hb _ hm
  simp only at hR
  subst hR
  simp only [phase hr, Real.sin_int_mul_pi]
  have hp : (2 : ℤ) ∣ (q 0 * R.1 + q 1 * R.2.1 + q 2 * R.2.2) - (q' 0 * R.1 + q' 1 * R.2.1 + q' 2 * R.2.2) := by
    obtain ⟨a, ha⟩ := hq 0
    obtain ⟨b, hb⟩ := hq 1
    obtain ⟨c, hc⟩ := hq 2
    refine ⟨a * R.1 + b * R.2.1 + c * R.2.2, ?_⟩
    linear_combination R.1 * ha + R.2.1 * hb + R.2.2 * hc
  rw [cos_parity hp]

/-- The seven classes of vectors. -/
def seven : List (V3 ℤ) := [![0, 0, 1], ![0, 1, 0], ![0, 1, 1], ![1, 0, 0], ![1, 0, 1], ![1, 1, 0], ![1, 1, 1]]

theorem seven_class : ∀ q ∈ nonzero, ∃ q' ∈ seven, ∀ i, 2 ∣ q i - q' i := by decide

/-- **C68 (26 minimisations of 7 functions).** The 26 minimisations of the antiferro case are minimisations of at most
seven different functions. -/
theorem C68_seven {order : List Atom → List Atom} {lat recip : M3 ℝ} {g : Atom → ℝ} {s t : St ℝ} {E : EnergyObj ℝ}
    (hE : EnergyObj.init order lat g s = (.ok E, t)) (hr : Reciprocal lat recip) (muB : ℝ) (cell : ℕ → M3 ℝ) :
    Set.ncard {F : List (V3 ℝ) → V3 ℝ → ℝ | ∃ q ∈ nonzero, F = fun e n => E.antiferroUnit muB cell e n (qvec recip q)} ≤ 7 ∧
      nonzero.length = 26 := by
  refine ⟨?_, by decide⟩
  have hsub : {F : List (V3 ℝ) → V3 ℝ → ℝ | ∃ q ∈ nonzero, F = fun e n => E.antiferroUnit muB cell e n (qvec recip q)} ⊆
      (fun q : V3 ℤ => fun e n => E.antiferroUnit muB cell e n (qvec recip q)) '' (seven.toFinset : Set (V3 ℤ)) := by
    rintro F ⟨q, hq, rfl⟩
    obtain ⟨q', h1, h2⟩ := seven_class q hq
    refine ⟨q', by simpa using h1, ?_⟩
    funext e n
    exact (C68_parity hE hr muB cell h2 E.field e n).symm
  refine (Set.ncard_le_ncard hsub ((Finset.finite_toSet _).image _)).trans ?_
  refine (Set.ncard_image_le (Finset.finite_toSet _)).trans ?_
  rw [Set.ncard_coe_finset]
  exact (List.toFinset_card_le _).trans (by decide)

/-! ### With the Hamiltonian -/

theorem solveWith_full {E : EnergyObj ℝ} {muB : ℝ} {cell : ℕ → M3 ℝ} {rnd : ℕ → Random} {fuel : ℕ}
    (hr : ∀ n, (rnd n).Good E.spins.length) (job : Job) (n : ℕ) (s : Sol)
    (h : solveWith E muB cell rnd fuel job n = some (.ok s)) : s.spins.length = E.spins.length ∧ AllUnit s.spins := by
  have cone : ∀ x : ConeX, x.1.length = E.spins.length + 1 → AllUnit x.1 →
      (unpackCone x).1.length = E.spins.length ∧ AllUnit (unpackCone x).1 := by
    intro x h1 h2
    refine ⟨by simp [unpackCone, h1], fun v hv => h2 v (List.dropLast_subset _ hv)⟩
  cases job with
  | ferro =>
    simp only [solveWith, Option.map_eq_some_iff] at h
    obtain ⟨r, hr1, hr2⟩ := h
    cases r with
    | error e => cases hr2
    | ok r =>
      cases hr2
      obtain ⟨k, xs, -, -, h3, h4, -⟩ := C32_ferro E muB cell (rnd n) none none none (some 1000) fuel r trivial (hr n) hr1
      have := h4 k le_rfl
      rw [h3] at this
      exact this
  | antiferro q =>
    simp only [solveWith, Option.map_eq_some_iff] at h
    obtain ⟨r, hr1, hr2⟩ := h
    cases r with
    | error e => cases hr2
    | ok r =>
      cases hr2
      obtain ⟨k, xs, -, -, h3, h4, -⟩ :=
        C32_antiferro E muB cell (rnd n) _ none none none (some 1000) fuel r trivial (hr n) hr1
      have := h4 k le_rfl
      rw [h3] at this
      exact cone _ this.1 this.2
  | spiral =>
    simp only [solveWith, Option.map_eq_some_iff] at h
    obtain ⟨r, hr1, hr2⟩ := h
    cases r with
    | error e => cases hr2
    | ok r =>
      cases hr2
      obtain ⟨k, xs, -, -, h3, h4, -⟩ :=
        C32_spiral E muB cell (rnd n) none none none (some 1000) fuel r trivial (hr n) hr1
      have := h4 k le_rfl
      rw [h3] at this
      exact cone _ this.1 this.2

/-- What the script uses, for an `Energy` object and the Hamiltonian after its creation. -/
noncomputable def envOf (order : List Atom → List Atom) (recip : M3 ℝ) (pos : Atom → V3 ℝ) (muB : ℝ) (rnd : ℕ → Random)
    (fuel : ℕ) (E : EnergyObj ℝ) (t : St ℝ) : Env :=
  { atoms := t.magneticAtoms order, pos := pos, recip := recip,
    solve := solveWith E muB t.cell rnd fuel, energy := energyWith E muB t.cell }

/-- **C68 (the report of a Hamiltonian).** For every Hamiltonian with magnetic atoms, if the script for the
ferro case ends without an exception then the report lists every magnetic atom once with name, position and a direction of
length one, and the energy in the summary is the energy of the Hamiltonian in this configuration, as computed by
`Energy.ferro` (see `C23_ferro_exact`). -/
theorem C68_ferro_report {order : List Atom → List Atom} (hord : ∀ l, (order l).Perm l) (lat recip : M3 ℝ) (pos : Atom → V3 ℝ)
    (g : Atom → ℝ) (muB : ℝ) (rnd : ℕ → Random) (fuel : ℕ) (s : St ℝ) (spin : Atom → ℝ) (d n : Bool) (e o : ℝ)
    (h : EnergyReady order s spin d n e o) (hm : s.magneticAtoms order ≠ [])
    (hr : ∀ k, (rnd k).Good (s.magneticAtoms order).length) (w : World)
    (hw : script order lat recip pos g muB rnd fuel s none (.list [Str.lit "ferro"]) = some (w, .ok ())) :
    ∃ (dir : Atom → V3 ℝ) (x : ℝ), (∀ a ∈ s.magneticAtoms order, IsUnit3 (dir a)) ∧
      w.recs = [.start (Str.lit "ferromagnetic"), .done (Str.lit "ferromagnetic") none] ++
        (s.magneticAtoms order).map (fun a => .spin a.name (pos a) (dir a)) ++ [.summary, .ferro x] ∧
      ∀ (Γ : Type) [AddCommGroup Γ] [Fintype Γ] (c : Config ℝ Γ), c.Repeats dir →
        Fintype.card Γ * x =
          (if d then 1 else 2) * e * c.bonds spin s.exchangeItems + e ^ 2 / o * c.sites spin s.onSiteItems := by
  classical
  obtain ⟨E, t, l1, l2, t1, hE⟩ := h.spec two_ne_zero hord lat g
  have hat := hE.magneticAtoms
  unfold script at hw
  rw [hE.init] at hw
  simp only at hw
  have hplain : ∀ g ∈ [Str.lit "ferro"], Plain g := by simp [Plain]
  have hsel : selected (.list [Str.lit "ferro"]) = .ok [Str.lit "ferro"] := selected_list fun g hg => (hplain g hg).mem
  obtain ⟨env, henv⟩ : ∃ env : Env, env = envOf order recip pos muB rnd fuel E t := ⟨_, rfl⟩
  have hw' : manager env (.list [Str.lit "ferro"]) = some (w, .ok ()) := by rw [henv]; exact hw
  have hall := C68_only_if hsel hw'
  obtain ⟨w', h1, h2⟩ := C68_tables _ hplain hall
  rw [hw'] at h1
  simp only [Option.some.injEq, Prod.mk.injEq, and_true] at h1
  subst h1
  have hok : env.Ok .ferro 0 := by
    have := hall 0 (by rw [jobs_cons, jobsOf_ferro]; simp)
    simpa [jobs_cons, jobsOf_ferro] using this
  obtain ⟨s1, s2, s3⟩ := hok.spec
  obtain ⟨S, hS⟩ : ∃ S, S = env.sol .ferro 0 := ⟨_, rfl⟩
  rw [← hS] at s1 s3
  have hlen : E.spins.length = (s.magneticAtoms order).length := by rw [hE.spins, List.length_map]
  have hfull := solveWith_full (E := E) (muB := muB) (cell := t.cell) (rnd := rnd) (fuel := fuel)
    (by rw [hlen]; exact hr) .ferro 0 S (by rw [henv] at s1; exact s1)
  have hnd : (s.magneticAtoms order).Nodup := St.magneticAtoms_nodup hord s
  obtain ⟨dir, hdir⟩ : ∃ dir : Atom → V3 ℝ, S.spins = (s.magneticAtoms order).map dir := by
    refine ⟨fun a => S.spins.getD ((s.magneticAtoms order).idxOf a) 0, ?_⟩
    apply List.ext_getElem (by rw [hfull.1, hlen, List.length_map])
    intro i hi1 hi2
    rw [List.getElem_map, hnd.idxOf_getElem, List.getD_eq_getElem?_getD, List.getElem?_eq_getElem hi1]
    rfl
  -- directions elsewhere do not matter
  obtain ⟨dir', hd1, hd2⟩ : ∃ dir' : Atom → V3 ℝ, (∀ a, IsUnit3 (dir' a)) ∧ ∀ a ∈ s.magneticAtoms order, dir' a = dir a := by
    refine ⟨fun a => if a ∈ s.magneticAtoms order then dir a else ![1, 0, 0], fun a => ?_, fun a ha => by simp [ha]⟩
    by_cases ha : a ∈ s.magneticAtoms order
    · simp only [ha, if_true]
      exact hfull.2 _ (by rw [hdir]; exact List.mem_map_of_mem ha)
    · simp only [ha, if_false]
      simp [IsUnit3, dotProduct, Fin.sum_univ_three]
  have hS' : S.spins = (s.magneticAtoms order).map dir' := by
    rw [hdir]
    exact List.map_congr_left fun a ha => (hd2 a ha).symm
  obtain ⟨E2, t2, x, c1, c2, c3⟩ := C23_ferro_exact hord lat g muB s spin d n e o h hm dir' hd1
  rw [hE.init] at c1
  simp only [Prod.mk.injEq, Except.ok.injEq] at c1
  obtain ⟨rfl, rfl⟩ := c1
  have hx : env.en .ferro 0 = x := by
    have : env.energy .ferro S = .ok x := by
      rw [henv]
      simp only [envOf, energyWith]
      rw [hS']
      exact c2
    rw [this] at s3
    cases s3
    rfl
  refine ⟨dir', x, fun a _ => hd1 a, ?_, fun Γ _ _ c hc => c3 Γ c hc⟩
  rw [h2]
  have ex : env.expected [Str.lit "ferro"] 0 = [.ferro x] := by simp [Env.expected, Env.lines, hx]
  rw [ex]
  have eb : env.block (Str.lit "ferro") 0 = [.start (Str.lit "ferromagnetic"), .done (Str.lit "ferromagnetic") none] ++
      (s.magneticAtoms order).map (fun a => .spin a.name (pos a) (dir' a)) := by
    rw [Env.block, if_pos rfl, ← hS, hS', Env.rows]
    congr 1
    rw [henv]
    simp only [envOf, hat]
    rw [List.zipWith_map_right, List.zipWith_self]
  simp [eb]

theorem init_m {K : Type*} [Field K] [DecidableEq K] {order : List Atom → List Atom} {lat : M3 K} {g : Atom → K}
    {s t : St K} {E : EnergyObj K} (h : EnergyObj.init order lat g s = (.ok E, t)) : E.m = 10 := by
  unfold EnergyObj.init at h
  split at h
  · cases h
  simp only at h
  split at h
  · cases h
  split at h
  · cases h
  split at h
  · cases h
  split at h
  · cases h
  split at h
  · cases h
  split at h
  · cases h
  split at h
  · cases h
  · cases h
    rfl

/-! ### Examples -/

theorem jobsOf_antiferro (recip : M3 ℝ) :
    jobsOf recip (Str.lit "antiferro") = nonzero.map fun q => .antiferro (qvec recip q) := by
  rw [jobsOf, if_neg ne_af, if_pos rfl]

/-- One magnetic atom; every minimisation returns the same state, the energies are 1, 2 and 3 in the three cases. -/
def one : Env :=
  { atoms := [HistoryExample.fe1], pos := fun _ => 0, recip := 0,
    solve := fun _ _ => some (.ok ⟨[![0, 0, 1]], ![1, 0, 0], 0, []⟩),
    energy := fun job _ => .ok (match job with | .ferro => 1 | .antiferro _ => 2 | .spiral => 3) }

theorem one_ok (c : ℕ) (l : List Job) : one.AllOk c l := fun _ _ => ⟨_, _, rfl, by simp [one], rfl⟩

/-- The hypotheses of the theorems above, and what should have been reported. -/
example : one.AllOk 0 (jobs one.recip allTypes) ∧ (jobs one.recip allTypes).length = 28 ∧ one.Full ∧ one.atoms ≠ [] ∧
    one.expected allTypes 0 = .ferro 1 :: .antiferroTitle :: ((List.range 26).map fun k => .antiferro (k + 1) 2) ++
      [.spiral 3] := by
  refine ⟨one_ok _ _, ?_, ?_, by simp [one], ?_⟩
  · have h1 : nonzero.length = 26 := by decide
    simp [jobs, allTypes, jobsOf_ferro, jobsOf_spiral, jobsOf_antiferro, h1]
  · intro job n s hs
    simp only [one, Option.some.injEq, Except.ok.injEq] at hs
    subst hs
    rfl
  · have h1 : nonzero.length = 26 := by decide
    have h2 : (one.energies 1 (jobsOf one.recip (Str.lit "antiferro"))) = List.replicate 26 2 := by
      rw [jobsOf_antiferro, Env.energies, List.eq_replicate_iff]
      refine ⟨by simp [h1], ?_⟩
      intro b hb
      obtain ⟨i, hi, rfl⟩ := List.mem_mapIdx.mp hb
      rw [List.getElem_map]
      rfl
    simp only [allTypes, Env.expected, Env.lines, if_true, if_neg ne_af, if_neg ne_sf, if_neg ne_sa, jobsOf_ferro,
      List.length_singleton, Nat.zero_add, h2, List.append_nil]
    rfl

/-- **C68 is false of the code.** -/
theorem C68_false : ¬ C68_statement fun _ => True := by
  intro h
  obtain ⟨w, l, h1, -⟩ := h one allTypes (fun g hg => ⟨hg, trivial⟩) (one_ok _ _)
  exact C68_antiferro_never (env := one) [Str.lit "ferro"] [Str.lit "spiral"] (by simp [Plain]) (by simp [allTypes]) (by decide)
    (arg := .list allTypes) (selected_list fun _ hg => hg) w h1

/-- The first lines of the report of `one` with all types: the antiferro energy shown is the energy of the ferro state. -/
example : ∃ w l, manager one (.list allTypes) = some (w, .error .typeError) ∧
    w.recs = l ++ [.summary, .ferro 1, .antiferroTitle, .antiferro 1 1] ∧ ∀ r ∈ l, ¬ r.InSummary := by
  obtain ⟨w, l, h1, h2, h3⟩ := C68_antiferro (env := one) [Str.lit "ferro"] [Str.lit "spiral"] (by simp [Plain])
    (by simp [allTypes]) (by decide) (one_ok _ _)
  refine ⟨w, l, h1, ?_, h3⟩
  rw [h2, jobs_cons, jobsOf_ferro]
  simp only [Env.expected, Env.lines, if_true, List.append_nil, jobs, List.flatMap_nil, Env.energies, List.mapIdx_cons,
    List.mapIdx_nil, List.cons_append, List.nil_append]
  rfl

/-- A cell and its reciprocal cell. -/
example : Reciprocal (1 : M3 ℝ) (fun i j => if i = j then 2 * Real.pi else 0) := by
  intro i j
  fin_cases i <;> fin_cases j <;> simp [Fin.sum_univ_three, Matrix.one_apply]

/-- A minimisation which starts in a state without torques returns it. -/
theorem run_zero {X : Type} {P : Problem X} {E : EnergyObj ℝ} {o : Options} {x : X} {ts : List ℝ} {h : ℤ} (hm : 0 < E.m)
    (hpos : o.Positive) (hmax : o.maxIter = none) (hh : o.history = some h) (h0 : h ≠ 0)
    (hg : (P.grad x).1 = fun _ => 0) (hu : P.update x (fun _ => 0) 1 = x) (ht : P.target (P.grad x).2 = .ok ts)
    (htol : 0 ≤ o.tolEnergy) (hts : ∀ p ∈ ts.zip o.tolTorque, p.1 ≤ p.2) :
    ∃ r, run P E o 2 x = some (.ok r) ∧ r.x = x := by
  have hr : Running o (initial P o x) := (running_initial_iff P o x).mpr hpos
  have hl : ¬ AtLimit o (initial P o x) := by
    rintro ⟨n, hn, _⟩; rw [hmax] at hn; cases hn
  have hm0 : E.m.toNat ≠ 0 := by omega
  have hd : searchDirection E.m.toNat P.size (initial P o x).mem (initial P o x).k (P.grad (initial P o x).x).1
      (initial P o x).prev = .ok (0, (P.grad x).1, Optimize.Mem.zero) := by
    simp [searchDirection, initial, hm0]
  have ha : Accepts P E.wolfeC1 E.wolfeC2 x (P.grad x).1 1 := by
    simp [Accepts, hg, hu, vdot]
  have hls : lineSearch P E.wolfeC1 E.wolfeC2 E.wolfeIterMax (initial P o x).x (P.grad x).1 = .ok 1 := by
    show lineSearch P E.wolfeC1 E.wolfeC2 E.wolfeIterMax x (P.grad x).1 = .ok 1
    rw [lineSearch, lineLoop, if_pos ha]
  have ht' : P.target (P.grad (initial P o x).x).2 = .ok ts := ht
  obtain ⟨s', hs'⟩ : ∃ s', iterate P E o (initial P o x) = .ok s' := by
    simp only [iterate, hd, hls, ht', hh, if_neg h0]
    split_ifs
    · exact ⟨_, rfl⟩
    · exact ⟨_, rfl⟩
  obtain ⟨k, p, mem, lam, t⟩ := iterate_spec hs'
  have hdir := t.dir
  rw [hd] at hdir
  cases hdir
  have hline := t.line
  rw [hls] at hline
  cases hline
  have htt := t.targets
  rw [ht'] at htt
  have hx : s'.x = x := by
    have : s'.x = P.update x (P.grad x).1 1 := t.x
    rw [this, hg, hu]
  have hnr : ¬ Running o s' := by
    simp only [Running, not_or, not_lt, not_exists, not_and]
    refine ⟨?_, ?_⟩
    · rw [t.energyDiff, hx]
      have : (initial P o x).energyPrev = P.energy x := rfl
      rw [this, sub_self, abs_zero]
      exact htol
    · rw [← Except.ok.inj htt]; exact hts
  rw [run, if_neg (by omega), optLoop]
  simp only [hr, hl, if_true, if_false, hs']
  rw [optLoop]
  simp only [hnr, if_false, hh]
  exact ⟨_, rfl, hx⟩

open FerroExample in
/-- The hypotheses of `C68_ferro_report`: a Hamiltonian with two bonds and an on-site term, for which the script ends
without an exception. -/
example : ∃ w, script id 1 0 (fun _ => 0) (fun _ => 2) 1 (fun _ => ⟨[![0, 0, 1]], ![0, 0, 1], 0⟩) 2
    (st true false 1 1 twice [(HistoryExample.fe1, 2)]) none (.list [Str.lit "ferro"]) = some (w, .ok ()) := by
  classical
  obtain ⟨rdy⟩ : Nonempty (EnergyReady id (st true false 1 1 twice [(HistoryExample.fe1, 2)]) (fun _ => (2 : ℝ)) true false 1 1) :=
    ⟨twice_ready false one_ne_zero⟩
  obtain ⟨s, hs⟩ : ∃ s, s = st true false (1 : ℝ) 1 twice [(HistoryExample.fe1, 2)] := ⟨_, rfl⟩
  have hat : s.magneticAtoms id = [HistoryExample.fe1] := by rw [hs]; exact atoms_twice _ _ _
  rw [← hs] at rdy ⊢
  obtain ⟨E, t, l1, l2, t1, hE⟩ := rdy.spec (order := id) two_ne_zero (fun _ => .refl _) 1 (fun _ => 2)
  have hsp : E.spins = [2] := by rw [hE.spins, hat]; rfl
  have hen : ∀ v : V3 ℝ, IsUnit3 v → E.ferroUnit 1 t.cell [v] = 12 := by
    intro v hv
    obtain ⟨E2, t2, x, c1, c2, c3⟩ := C23_ferro_exact (order := id) (fun _ => .refl _) 1 (fun _ => 2) 1 s _ _ _ _ _ rdy
      (by rw [hat]; simp) (fun _ => v) fun _ => hv
    rw [hE.init] at c1
    simp only [Prod.mk.injEq, Except.ok.injEq] at c1
    obtain ⟨rfl, rfl⟩ := c1
    rw [hat, List.map_cons, List.map_nil, ferro_arr E 1 t.cell (by rw [hsp]; rfl) (by rw [hsp]; simp),
      map_normalize_unit (by simpa using hv)] at c2
    have hb : bilin v 1 v = 1 := by
      have := hv
      simp only [IsUnit3, dotProduct, Fin.sum_univ_three] at this
      simp [bilin, Fin.sum_univ_three, Matrix.one_apply, this]
    have := c3 Unit ⟨0, fun _ _ => v⟩ fun _ _ => rfl
    rw [← Except.ok.inj c2, hs] at this
    simp [St.exchangeItems, St.onSiteItems, Config.bonds, Config.sites, twice, Config.bond, Config.site, hb, st] at this
    linarith
  obtain ⟨P, hP⟩ : ∃ P, P = ferroProblem E 1 t.cell := ⟨_, rfl⟩
  have hc : ∀ v : V3 ℝ, v ≠ 0 → P.energy [v] = 12 := by
    intro v hv
    rw [hP]
    exact hen _ (normalize_unit hv)
  have hrg : rowGrad P.energy [![0, 0, 1]] 0 = 0 := by
    funext j
    have hb : ∀ y : ℝ, y = fdStep ∨ y = -fdStep → bump ![0, 0, 1] j y ≠ 0 := by
      intro y hy h0
      have h2 := congrFun h0 2
      have : y ≠ -1 := by rcases hy with rfl | rfl <;> norm_num [fdStep]
      simp only [bump, Matrix.cons_val, Pi.zero_apply] at h2
      split_ifs at h2
      · exact this (by linarith)
      · norm_num at h2
    simp only [rowGrad, List.getD_cons_zero, List.set_cons_zero]
    rw [hc _ (hb _ (Or.inl rfl)), hc _ (hb _ (Or.inr rfl))]
    simp
  have hts : (P.grad [![0, 0, 1]]).2 = [0] := by
    have : (P.grad [![0, 0, 1]]).2 = [rowTorque P.energy [![0, 0, 1]] 0] := by rw [hP]; rfl
    rw [this, rowTorque, hrg, map_zero]
  have hgr : (P.grad [![0, 0, 1]]).1 = fun _ => 0 := by
    have : (P.grad [![0, 0, 1]]).1 = packTorques (P.grad [![0, 0, 1]]).2 := by rw [hP]; rfl
    rw [this, hts]
    funext k
    have : ([0] : List (V3 ℝ)).getD (k / 3) 0 = 0 := by
      cases k / 3 <;> rfl
    simp only [packTorques, this]
    simp
  have hup : P.update [![0, 0, 1]] (fun _ => 0) 1 = [![0, 0, 1]] := by
    rw [hP]
    simp [ferroProblem, updateFerro, rotateRows, rotateRow, hsp, eps]
  have htg : P.target (P.grad [![0, 0, 1]]).2 = .ok [0] := by
    rw [hts, hP]
    simp [ferroProblem, targetFerro, maxNorm, norm3]
  obtain ⟨r, hr, hrx⟩ := run_zero (P := P) (E := E) (o := ⟨1 / 100000, [1 / 100000], none, some 1000⟩) (h := 1000)
    (by rw [init_m hE.init]; decide) (.inl (by norm_num)) rfl rfl (by decide) hgr hup htg (by norm_num) (by simp)
  have hz : normalizeRows [![0, 0, 1]] = [![0, 0, (1 : ℝ)]] := by
    rw [normalizeRows]
    exact map_normalize_unit (by simpa using z_unit)
  have hopt : optimizeFerro E 1 t.cell ⟨[![0, 0, 1]], ![0, 0, 1], 0⟩ none none none (some 1000) 2 = some (.ok r) := by
    rw [optimizeFerro, startFerro, hz]
    simp only [tolerances]
    rw [← hP]
    exact hr
  have hsel : ∀ g ∈ [Str.lit "ferro"], Plain g := by simp [Plain]
  have key : ∀ env : Env, env.Ok .ferro 0 → ∃ w, manager env (.list [Str.lit "ferro"]) = some (w, .ok ()) := by
    intro env hok
    obtain ⟨w, hw, -⟩ := C68_tables (env := env) _ hsel (by
      rw [jobs_cons, jobsOf_ferro]
      intro i hi
      have : i = 0 := by simpa [jobs] using hi
      subst this
      exact hok)
    exact ⟨w, hw⟩
  rw [script, hE.init]
  apply key
  refine ⟨⟨r.x, 0, 0, r.written.map fun b => b.map fun t => (t.1, t.2.1, (t.2.2, 0))⟩, 12, ?_, ?_, ?_⟩
  · simp only [solveWith, hopt]
    rfl
  · simp only [hE.magneticAtoms, hat, hrx]
    exact le_rfl
  · simp only [energyWith, hrx]
    have := ferroProblem_energy E 1 t.cell (x := [![0, 0, 1]]) (by rw [hsp]; rfl) (by rw [hsp]; simp)
    rw [← hP, hc _ (fun h => by simpa using congrFun h 2)] at this
    exact this

end Magnopy.Minimize
