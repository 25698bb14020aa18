import Verif.Lemmas.Minimize

/-!
# Helper lemmas: the summary of the script which minimises energies
-/

set_option autoImplicit false

set_option linter.unusedSectionVars false

namespace Magnopy.Minimize

variable {env : Env}

/-- The element of `energies` for one of the three types. -/
noncomputable def valOf (env : Env) (g : Str) (c : ℕ) : Val :=
  if g = Str.lit "ferro" then .num (env.en .ferro c)
  else if g = Str.lit "antiferro" then .list (env.energies c (jobsOf env.recip g))
  else .num (env.en .spiral c)

theorem mem_allTypes {g : Str} : g ∈ allTypes ↔ g = Str.lit "ferro" ∨ g = Str.lit "antiferro" ∨ g = Str.lit "spiral" := by
  simp [allTypes]

theorem vals_cons {g : Str} (hg : g ∈ allTypes) (gs : List Str) (c : ℕ) :
    vals env (g :: gs) c = valOf env g c :: vals env gs (c + (jobsOf env.recip g).length) := by
  rcases mem_allTypes.mp hg with rfl | rfl | rfl
  · simp [vals, valOf]
  · simp [vals, valOf, ne_af]
  · simp [vals, valOf, ne_sf, ne_sa]

theorem vals_length {gs : List Str} (hg : ∀ g ∈ gs, g ∈ allTypes) (c : ℕ) : (vals env gs c).length = gs.length := by
  induction gs generalizing c with
  | nil => rfl
  | cons g gs ih =>
    rw [vals_cons (hg g (by simp)), List.length_cons, ih (fun g' h => hg g' (by simp [h])), List.length_cons]

theorem jobs_append (recip : M3 ℝ) (p r : List Str) : jobs recip (p ++ r) = jobs recip p ++ jobs recip r := by
  simp [jobs]

theorem vals_append {p : List Str} (hp : ∀ g ∈ p, g ∈ allTypes) (r : List Str) (c : ℕ) :
    vals env (p ++ r) c = vals env p c ++ vals env r (c + (jobs env.recip p).length) := by
  induction p generalizing c with
  | nil => simp [vals, jobs]
  | cons g p ih =>
    rw [List.cons_append, vals_cons (hp g (by simp)), vals_cons (hp g (by simp)), ih (fun g' h => hp g' (by simp [h])),
      jobs_cons, List.length_append, Nat.add_assoc]
    rfl

theorem vals_at {p r : List Str} (hp : ∀ g ∈ p, g ∈ allTypes) {g : Str} (hg : g ∈ allTypes) (c : ℕ) :
    (vals env (p ++ g :: r) c)[p.length]? = some (valOf env g (c + (jobs env.recip p).length)) := by
  rw [vals_append hp, vals_cons hg, List.getElem?_append_right (by rw [vals_length hp]), vals_length hp]
  simp

theorem at_length {α : Type} (p r : List α) (g : α) : (p ++ g :: r)[p.length]? = some g := by
  rw [List.getElem?_append_right le_rfl]; simp

/-! ### Steps of the summary -/

theorem step_ferro {gs : List Str} {es : List Val} {i : ℕ} {x : ℝ} (h1 : gs[i]? = some (Str.lit "ferro"))
    (h2 : es[i]? = some (.num x)) : summaryStep gs es i = ([.ferro x], none) := by
  have e : afterInner gs i = i := by
    rw [afterInner, h1, if_neg]
    intro h
    exact ne_af (Option.some.inj h).symm
  have n1 : Str.lit "ferro" ≠ Str.lit "antiferro" := ne_af.symm
  have n2 : Str.lit "ferro" ≠ Str.lit "spiral" := ne_sf.symm
  simp only [summaryStep, e, guarded, h1, formatted, h2, if_neg n1, if_neg n2, if_true, Part.andThen]
  simp

theorem step_spiral {gs : List Str} {es : List Val} {i : ℕ} {x : ℝ} (h1 : gs[i]? = some (Str.lit "spiral"))
    (h2 : es[i]? = some (.num x)) : summaryStep gs es i = ([.spiral x], none) := by
  have e : afterInner gs i = i := by
    rw [afterInner, h1, if_neg]
    intro h
    exact ne_sa (Option.some.inj h)
  simp only [summaryStep, e, guarded, h1, formatted, h2, if_neg ne_sa, if_neg ne_sf, if_true, Part.andThen]
  simp

theorem numbers_fail {es : List Val} {xs : List ℝ} {l : List ℝ} (hx : ∀ k (h : k < xs.length), es[k]? = some (.num xs[k]))
    (hp : es[xs.length]? = some (.list l)) (n i : ℕ) (hi : i ≤ xs.length) (hn : xs.length < i + n) :
    numbers es n i = ((xs.mapIdx fun k x => Rec.antiferro (k + 1) x).drop i, some .typeError) := by
  induction n generalizing i with
  | zero => omega
  | succ n ih =>
    rw [numbers]
    rcases Nat.eq_or_lt_of_le hi with h | h
    · subst h
      simp only [formatted, hp, Part.andThen]
      rw [List.drop_eq_nil_of_le (by simp)]
    · rw [ih (i + 1) h (by omega)]
      simp only [formatted, hx i h, Part.andThen]
      rw [List.drop_eq_getElem_cons (i := i) (by simpa using h)]
      simp

theorem step_antiferro {gs : List Str} {es : List Val} {i : ℕ} {xs l : List ℝ} (h1 : gs[i]? = some (Str.lit "antiferro"))
    (hx : ∀ k (h : k < xs.length), es[k]? = some (.num xs[k])) (hp : es[xs.length]? = some (.list l))
    (hn : xs.length < 26) :
    summaryStep gs es i = (.antiferroTitle :: xs.mapIdx (fun k x => Rec.antiferro (k + 1) x), some .typeError) := by
  have := numbers_fail hx hp 26 0 (Nat.zero_le _) (by omega)
  simp only [summaryStep, guarded, h1, if_neg ne_af, if_true, this, Part.andThen]
  simp

/-- Types for which the energy is a number. -/
def Plain (g : Str) : Prop := g = Str.lit "ferro" ∨ g = Str.lit "spiral"

theorem Plain.mem {g : Str} (h : Plain g) : g ∈ allTypes := by
  rcases h with rfl | rfl <;> simp [allTypes]

theorem Plain.one {g : Str} (h : Plain g) (recip : M3 ℝ) : (jobsOf recip g).length = 1 := by
  rcases h with rfl | rfl
  · rw [jobsOf_ferro]; rfl
  · rw [jobsOf_spiral]; rfl

theorem plain_step {gs : List Str} {es : List Val} {i c : ℕ} {g : Str} (hg : Plain g) (h1 : gs[i]? = some g)
    (h2 : es[i]? = some (valOf env g c)) : summaryStep gs es i = (env.lines g c, none) := by
  rcases hg with rfl | rfl
  · rw [valOf, if_pos rfl] at h2
    rw [step_ferro h1 h2]
    simp [Env.lines]
  · rw [valOf, if_neg ne_sf, if_neg ne_sa] at h2
    rw [step_spiral h1 h2]
    simp [Env.lines, ne_sf, ne_sa]

theorem plain_loop (p r suf : List Str) (hp : ∀ g ∈ p, g ∈ allTypes) (hr : ∀ g ∈ r, Plain g) (c : ℕ) (rest : List ℕ) :
    summaryLoop (p ++ r ++ suf) (vals env (p ++ r ++ suf) c) (List.range' p.length r.length ++ rest) =
      Part.andThen (env.expected r (c + (jobs env.recip p).length), none)
        (summaryLoop (p ++ r ++ suf) (vals env (p ++ r ++ suf) c) rest) := by
  induction r generalizing p with
  | nil => simp [Env.expected, Part.andThen]
  | cons g r ih =>
    have hg := hr g (by simp)
    have e : p ++ g :: r ++ suf = (p ++ [g]) ++ r ++ suf := by simp
    have h1 : (p ++ g :: r ++ suf)[p.length]? = some g := by
      rw [List.append_assoc, List.cons_append]; exact at_length _ _ _
    have h2 : (vals env (p ++ g :: r ++ suf) c)[p.length]? = some (valOf env g (c + (jobs env.recip p).length)) := by
      rw [List.append_assoc, List.cons_append]; exact vals_at hp hg.mem c
    have hp' : ∀ g' ∈ p ++ [g], g' ∈ allTypes := by
      intro g' h
      rcases List.mem_append.mp h with h | h
      · exact hp g' h
      · simp at h; subst h; exact hg.mem
    have := ih (p ++ [g]) hp' (fun g' h => hr g' (by simp [h]))
    rw [← e] at this
    rw [List.length_cons, List.range'_succ, List.cons_append, summaryLoop, plain_step hg h1 h2]
    rw [List.length_append, List.length_singleton] at this
    rw [this, Env.expected, jobs_append, List.length_append, Nat.add_assoc]
    have ej : jobs env.recip [g] = jobsOf env.recip g := by simp [jobs]
    rw [ej]
    simp only [Part.andThen, List.append_assoc]

theorem plain_vals {r : List Str} (hr : ∀ g ∈ r, Plain g) (c : ℕ) :
    vals env r c = (env.energies c (jobs env.recip r)).map Val.num := by
  induction r generalizing c with
  | nil => simp [vals, jobs, Env.energies]
  | cons g r ih =>
    have hg := hr g (by simp)
    rw [vals_cons hg.mem, ih (fun g' h => hr g' (by simp [h])), jobs_cons, hg.one]
    rcases hg with rfl | rfl
    · rw [jobsOf_ferro, List.singleton_append, energies_cons, List.map_cons]
      simp [valOf]
    · rw [jobsOf_spiral, List.singleton_append, energies_cons, List.map_cons]
      simp [valOf, ne_sf, ne_sa]

theorem plain_jobs_length {r : List Str} (hr : ∀ g ∈ r, Plain g) (recip : M3 ℝ) : (jobs recip r).length = r.length := by
  induction r with
  | nil => rfl
  | cons g r ih =>
    rw [jobs_cons, List.length_append, (hr g (by simp)).one, ih (fun g' h => hr g' (by simp [h])), List.length_cons,
      Nat.add_comm]

theorem summary_plain {gs : List Str} (h : ∀ g ∈ gs, Plain g) :
    summary gs (vals env gs 0) = (.summary :: env.expected gs 0, none) := by
  have := plain_loop (env := env) [] gs [] (by simp) h 0 []
  simp only [List.nil_append, List.append_nil, List.length_nil, jobs, List.flatMap_nil, Nat.add_zero] at this
  rw [summary, vals_length fun g hg => (h g hg).mem, List.range_eq_range', this]
  simp [Part.andThen, summaryLoop]

theorem summary_antiferro {p r : List Str} (h : ∀ g ∈ p, Plain g) (hr : ∀ g ∈ r, g ∈ allTypes) (hp : p.length < 26) :
    summary (p ++ Str.lit "antiferro" :: r) (vals env (p ++ Str.lit "antiferro" :: r) 0) =
      (.summary :: (env.expected p 0 ++ .antiferroTitle ::
        (env.energies 0 (jobs env.recip p)).mapIdx fun k x => .antiferro (k + 1) x), some .typeError) := by
  have hpm : ∀ g ∈ p, g ∈ allTypes := fun g hg => (h g hg).mem
  have hall : ∀ g ∈ p ++ Str.lit "antiferro" :: r, g ∈ allTypes := by
    intro g hg
    rcases List.mem_append.mp hg with hg | hg
    · exact hpm g hg
    · rcases List.mem_cons.mp hg with rfl | hg
      · simp [allTypes]
      · exact hr g hg
  have hl := plain_loop (env := env) [] p (Str.lit "antiferro" :: r) (by simp) h 0
    (List.range' p.length (r.length + 1))
  simp only [List.nil_append, List.length_nil, jobs, List.flatMap_nil, Nat.add_zero] at hl
  have hx : (env.energies 0 (jobs env.recip p)).length = p.length := by
    rw [energies_length, plain_jobs_length h]
  have hstep := step_antiferro (gs := p ++ Str.lit "antiferro" :: r) (es := vals env (p ++ Str.lit "antiferro" :: r) 0)
    (i := p.length) (xs := env.energies 0 (jobs env.recip p)) (at_length _ _ _)
    (fun k hk => by
      rw [vals_append hpm, List.getElem?_append_left (by rw [vals_length hpm]; omega), plain_vals h]
      rw [List.getElem?_map, List.getElem?_eq_getElem hk]
      rfl)
    (by
      rw [hx, vals_at hpm (by simp [allTypes]), valOf, if_neg ne_af, if_pos rfl])
    (by omega)
  have er : List.range (vals env (p ++ Str.lit "antiferro" :: r) 0).length =
      List.range' 0 p.length ++ List.range' p.length (r.length + 1) := by
    rw [vals_length hall, List.range_eq_range', List.length_append, List.length_cons]
    have := List.range'_append (s := 0) (m := p.length) (n := r.length + 1) (step := 1)
    simpa using this.symm
  rw [summary, er, hl, List.range'_succ, summaryLoop, hstep]
  simp [Part.andThen]

/-! ### Where the energies of the antiferro lines come from -/

theorem formatted_mem {es : List Val} {i : ℕ} {line : ℝ → Rec} {r : Rec} (h : r ∈ (formatted es i line).1) :
    ∃ x, es[i]? = some (.num x) ∧ r = line x := by
  unfold formatted at h
  split at h
  · cases h
  · cases h
  · rename_i x hx
    exact ⟨x, hx, by simpa using h⟩

theorem andThen_mem {p q : Part} {r : Rec} (h : r ∈ (p.andThen q).1) : r ∈ p.1 ∨ r ∈ q.1 := by
  unfold Part.andThen at h
  split at h
  · exact Or.inl h
  · exact List.mem_append.mp h

theorem guarded_mem {gs : List Str} {i : ℕ} {s : Str} {p : Part} {r : Rec} (h : r ∈ (guarded gs i s p).1) : r ∈ p.1 := by
  unfold guarded at h
  split at h
  · cases h
  · split at h
    · exact h
    · cases h

theorem numbers_mem {es : List Val} {n i m : ℕ} {x : ℝ} (h : Rec.antiferro m x ∈ (numbers es n i).1) :
    ∃ k, m = k + 1 ∧ es[k]? = some (.num x) := by
  induction n generalizing i with
  | zero => cases h
  | succ n ih =>
    rw [numbers] at h
    rcases andThen_mem h with h | h
    · obtain ⟨y, h1, h2⟩ := formatted_mem h
      cases h2
      exact ⟨i, rfl, h1⟩
    · exact ih h

theorem summary_mem {gs : List Str} {es : List Val} {m : ℕ} {x : ℝ} (h : Rec.antiferro m x ∈ (summary gs es).1) :
    ∃ k, m = k + 1 ∧ es[k]? = some (.num x) := by
  rw [summary] at h
  rcases andThen_mem h with h | h
  · simp at h
  · generalize List.range es.length = l at h
    induction l with
    | nil => cases h
    | cons i l ih =>
      rw [summaryLoop] at h
      rcases andThen_mem h with h | h
      · rw [summaryStep] at h
        rcases andThen_mem h with h | h
        · obtain ⟨y, _, h2⟩ := formatted_mem (guarded_mem h)
          cases h2
        · rcases andThen_mem h with h | h
          · rcases andThen_mem (guarded_mem h) with h | h
            · simp at h
            · exact numbers_mem h
          · obtain ⟨y, _, h2⟩ := formatted_mem (guarded_mem h)
            cases h2
      · exact ih h

theorem vals_num {gs : List Str} {c k : ℕ} {x : ℝ} (h : (vals env gs c)[k]? = some (.num x)) :
    ∃ i, ((jobs env.recip gs)[i]? = some .ferro ∧ x = env.en .ferro (c + i)) ∨
      ((jobs env.recip gs)[i]? = some .spiral ∧ x = env.en .spiral (c + i)) := by
  induction gs generalizing c k with
  | nil => simp [vals] at h
  | cons g gs ih =>
    have shift : ∀ c' k' : ℕ, c' = c + (jobsOf env.recip g).length → (vals env gs c')[k']? = some (Val.num x) →
        ∃ i, ((jobs env.recip (g :: gs))[i]? = some .ferro ∧ x = env.en .ferro (c + i)) ∨
          ((jobs env.recip (g :: gs))[i]? = some .spiral ∧ x = env.en .spiral (c + i)) := by
      rintro c' k' rfl h
      obtain ⟨i, hi⟩ := ih h
      refine ⟨(jobsOf env.recip g).length + i, ?_⟩
      rw [jobs_cons, List.getElem?_append_right (by omega), Nat.add_sub_cancel_left, ← Nat.add_assoc]
      exact hi
    rw [vals] at h
    by_cases h1 : g = Str.lit "ferro"
    · subst h1
      rw [if_pos rfl, List.singleton_append] at h
      cases k with
      | zero =>
        simp at h
        refine ⟨0, Or.inl ⟨?_, by simpa using h.symm⟩⟩
        rw [jobs_cons, jobsOf_ferro]
        rfl
      | succ k => exact shift _ k rfl (by simpa using h)
    rw [if_neg h1] at h
    by_cases h2 : g = Str.lit "antiferro"
    · subst h2
      rw [if_pos rfl, List.singleton_append] at h
      cases k with
      | zero => simp at h
      | succ k => exact shift _ k rfl (by simpa using h)
    rw [if_neg h2] at h
    by_cases h3 : g = Str.lit "spiral"
    · subst h3
      rw [if_pos rfl, List.singleton_append] at h
      cases k with
      | zero =>
        simp at h
        refine ⟨0, Or.inr ⟨?_, by simpa using h.symm⟩⟩
        rw [jobs_cons, jobsOf_spiral]
        rfl
      | succ k => exact shift _ k rfl (by simpa using h)
    rw [if_neg h3] at h
    exact shift _ k rfl (by simpa using h)

end Magnopy.Minimize
