import Verif.Spec.Minimize

/-!
# Helper lemmas: the script which minimises energies
-/

set_option autoImplicit false

set_option linter.unusedSectionVars false

namespace Magnopy.Minimize

variable {env : Env}

theorem allOk_nil (c : ℕ) : env.AllOk c [] := fun i h => absurd h (by simp)

theorem allOk_cons {c : ℕ} {j : Job} {l : List Job} : env.AllOk c (j :: l) ↔ env.Ok j c ∧ env.AllOk (c + 1) l := by
  constructor
  · intro h
    refine ⟨h 0 (by simp), fun i hi => ?_⟩
    have := h (i + 1) (by simpa using hi)
    simpa [Nat.add_assoc, Nat.add_comm 1] using this
  · rintro ⟨h1, h2⟩ i hi
    cases i with
    | zero => exact h1
    | succ i =>
      have := h2 i (by simpa using hi)
      simpa [Nat.add_assoc, Nat.add_comm 1] using this

theorem allOk_append {c : ℕ} {l m : List Job} : env.AllOk c (l ++ m) ↔ env.AllOk c l ∧ env.AllOk (c + l.length) m := by
  induction l generalizing c with
  | nil => simp [allOk_nil]
  | cons j l ih =>
    rw [List.cons_append, allOk_cons, allOk_cons, ih, and_assoc, List.length_cons, Nat.add_assoc, Nat.add_comm 1]

theorem energies_cons (c : ℕ) (j : Job) (l : List Job) :
    env.energies c (j :: l) = env.en j c :: env.energies (c + 1) l := by
  simp [Env.energies, List.mapIdx_cons, Nat.add_assoc, Nat.add_comm 1]

theorem energies_length (c : ℕ) (l : List Job) : (env.energies c l).length = l.length := by simp [Env.energies]

theorem Env.Ok.spec {job : Job} {n : ℕ} (h : env.Ok job n) :
    env.solve job n = some (.ok (env.sol job n)) ∧ (env.sol job n).spins.length ≤ env.atoms.length ∧
      env.energy job (env.sol job n) = .ok (env.en job n) := by
  obtain ⟨s, x, h1, h2, h3⟩ := h
  have hs : env.sol job n = s := by simp [Env.sol, h1]
  refine ⟨by rw [hs, h1], by rw [hs]; exact h2, ?_⟩
  simp [Env.en, hs, h3]

theorem write_write (w : World) (a b : List Rec) : (w.write a).write b = w.write (a ++ b) := by
  simp [World.write]

theorem table_ok (k : ℕ) (l : List (V3 ℝ)) (w : World) (h : k + l.length ≤ env.atoms.length) :
    table env k l w =
      some (w.write (List.zipWith (fun a e => .spin a.name (env.pos a) e) (env.atoms.drop k) l), .ok ()) := by
  induction l generalizing k w with
  | nil => simp [table, World.write]
  | cons e l ih =>
    have hk : k < env.atoms.length := by simp at h; omega
    rw [table, List.getElem?_eq_getElem hk]
    simp only
    rw [ih (k + 1) _ (by simp at h; omega), write_write, List.drop_eq_getElem_cons hk, List.zipWith_cons_cons,
      List.singleton_append]

theorem table_bad (k : ℕ) (l : List (V3 ℝ)) (w : World) (h : env.atoms.length < k + l.length) (hk : k ≤ env.atoms.length) :
    ∃ w', table env k l w = some (w', .error .indexError) := by
  induction l generalizing k w with
  | nil => simp at h; omega
  | cons e l ih =>
    rw [table]
    by_cases hk' : k < env.atoms.length
    · rw [List.getElem?_eq_getElem hk']
      exact ih (k + 1) _ (by simp at h; omega) hk'
    · rw [List.getElem?_eq_none (by omega)]
      exact ⟨_, rfl⟩

theorem andThen_ok {α β : Type} {r : Run α} {f : α → World → Run β} {w : World} {b : β}
    (h : r.andThen f = some (w, .ok b)) : ∃ w1 a, r = some (w1, .ok a) ∧ f a w1 = some (w, .ok b) := by
  unfold Run.andThen at h
  split at h
  · cases h
  · cases h
  · exact ⟨_, _, rfl, h⟩

theorem optimize_ok {job : Job} {w : World} (file : HistFile) (h : env.Ok job w.calls) :
    optimize env job file w = some ({ w with calls := w.calls + 1, files := append w.files file (env.sol job w.calls).history },
      .ok (env.sol job w.calls)) := by
  rw [optimize, h.spec.1]

theorem optimize_inv {job : Job} {file : HistFile} {w w' : World} {s : Sol} (h : optimize env job file w = some (w', .ok s)) :
    env.solve job w.calls = some (.ok s) ∧
      w' = { w with calls := w.calls + 1, files := append w.files file s.history } := by
  unfold optimize at h
  split at h
  · cases h
  · cases h
  · rename_i t ht
    cases h
    exact ⟨ht, rfl⟩

theorem table_inv {k : ℕ} {l : List (V3 ℝ)} {w w' : World} {u : Unit} (hk : k ≤ env.atoms.length)
    (h : table env k l w = some (w', .ok u)) : k + l.length ≤ env.atoms.length := by
  by_contra hn
  obtain ⟨w1, h1⟩ := table_bad (env := env) k l w (by omega) hk
  rw [h1] at h
  cases h

/-! ### Ferro and spiral -/

theorem rows_def (l : List (V3 ℝ)) :
    List.zipWith (fun a e => Rec.spin a.name (env.pos a) e) (env.atoms.drop 0) l = env.rows l := rfl

theorem ferro_ok {w : World} (h : env.Ok .ferro w.calls) :
    ∃ f, minimizeFerro env w = some (⟨w.recs ++ env.block (Str.lit "ferro") w.calls, f, w.calls + 1⟩,
      .ok (env.en .ferro w.calls)) := by
  refine ⟨append w.files .ferro (env.sol .ferro w.calls).history, ?_⟩
  unfold minimizeFerro
  rw [optimize_ok (w := w.write _) _ h]
  simp only [Run.andThen]
  rw [table_ok 0 _ _ (by rw [Nat.zero_add]; exact h.spec.2.1), rows_def]
  have e : (w.write [Rec.start (Str.lit "ferromagnetic")]).calls = w.calls := rfl
  simp only [e, h.spec.2.2, World.write]
  simp [Env.block]

theorem spiral_ok {w : World} (h : env.Ok .spiral w.calls) :
    ∃ f, minimizeSpiral env w = some (⟨w.recs ++ env.block (Str.lit "spiral") w.calls, f, w.calls + 1⟩,
      .ok (env.en .spiral w.calls)) := by
  refine ⟨append w.files .spiral (env.sol .spiral w.calls).history, ?_⟩
  unfold minimizeSpiral
  rw [optimize_ok (w := w.write _) _ h]
  simp only [Run.andThen]
  rw [table_ok 0 _ _ (by rw [Nat.zero_add]; exact h.spec.2.1), rows_def]
  have e : (w.write [Rec.start (Str.lit "spiral")]).calls = w.calls := rfl
  have hne : Str.lit "spiral" ≠ Str.lit "ferro" := by decide
  simp only [e, h.spec.2.2, World.write]
  simp [Env.block, hne]

theorem ferro_inv {w w' : World} {x : ℝ} (h : minimizeFerro env w = some (w', .ok x)) : env.Ok .ferro w.calls := by
  unfold minimizeFerro at h
  obtain ⟨w1, s, h1, h2⟩ := andThen_ok h
  obtain ⟨w2, u, h3, h4⟩ := andThen_ok h2
  simp only [Option.some.injEq, Prod.mk.injEq] at h4
  exact ⟨s, x, (optimize_inv h1).1, by simpa using table_inv (Nat.zero_le _) h3, h4.2⟩

theorem spiral_inv {w w' : World} {x : ℝ} (h : minimizeSpiral env w = some (w', .ok x)) : env.Ok .spiral w.calls := by
  unfold minimizeSpiral at h
  obtain ⟨w1, s, h1, h2⟩ := andThen_ok h
  obtain ⟨w2, u, h3, h4⟩ := andThen_ok h2
  simp only [Option.some.injEq, Prod.mk.injEq] at h4
  exact ⟨s, x, (optimize_inv h1).1, by simpa using table_inv (Nat.zero_le _) h3, h4.2⟩

theorem rows_not {l : List (V3 ℝ)} : ∀ r ∈ env.rows l, ¬ r.InSummary := by
  unfold Env.rows
  generalize env.atoms = as
  induction as generalizing l with
  | nil => simp
  | cons a as ih =>
    cases l with
    | nil => simp
    | cons e l =>
      intro r hr
      rw [List.zipWith_cons_cons] at hr
      rcases List.mem_cons.mp hr with rfl | hr
      · exact fun h => h
      · exact ih r hr

/-! ### Antiferro -/

/-- The minimisations for a part of the list of vectors. -/
noncomputable def afJobs (env : Env) (qs : List (V3 ℤ)) : List Job :=
  (qs.filter fun q => q ≠ 0).map fun q => .antiferro (qvec env.recip q)

theorem afJobs_zero (qs : List (V3 ℤ)) : afJobs env (0 :: qs) = afJobs env qs := by simp [afJobs]

theorem afJobs_cons {q : V3 ℤ} (h : q ≠ 0) (qs : List (V3 ℤ)) :
    afJobs env (q :: qs) = .antiferro (qvec env.recip q) :: afJobs env qs := by simp [afJobs, h]

theorem afBlock_not (q : V3 ℤ) (n c : ℕ) : ∀ r ∈ afBlock env q n c, ¬ r.InSummary := by
  intro r hr
  simp only [afBlock, List.mem_append, List.mem_cons, List.not_mem_nil, or_false] at hr
  rcases hr with (((rfl | rfl) | hr)) | rfl | rfl
  · exact fun h => h
  · exact fun h => h
  · exact rows_not r hr
  · exact fun h => h
  · exact fun h => h

/-- One turn of the loop. -/
theorem loop_cons {q : V3 ℤ} (hq : q ≠ 0) (qs : List (V3 ℤ)) (i : ℕ) (es : List ℝ) {w : World}
    (h : env.Ok (.antiferro (qvec env.recip q)) w.calls) :
    antiferroLoop env (q :: qs) i es w =
      antiferroLoop env qs (after (i + 1) (env.sol (.antiferro (qvec env.recip q)) w.calls).spins)
        (es ++ [env.en (.antiferro (qvec env.recip q)) w.calls])
        ⟨w.recs ++ afBlock env q (i + 1) w.calls,
          append w.files (.antiferro (i + 1)) (env.sol (.antiferro (qvec env.recip q)) w.calls).history, w.calls + 1⟩ := by
  rw [antiferroLoop, if_neg hq, optimize_ok (w := w.write _) _ h]
  simp only [Run.andThen]
  rw [table_ok 0 _ _ (by rw [Nat.zero_add]; exact h.spec.2.1), rows_def]
  have e : (w.write [Rec.history q (.antiferro (i + 1))]).calls = w.calls := rfl
  simp only [e, h.spec.2.2, World.write]
  simp [afBlock]

theorem loop_ok (qs : List (V3 ℤ)) (i : ℕ) (es : List ℝ) (w : World) (h : env.AllOk w.calls (afJobs env qs)) :
    ∃ f l, antiferroLoop env qs i es w = some (⟨w.recs ++ l, f, w.calls + (afJobs env qs).length⟩,
      .ok (es ++ env.energies w.calls (afJobs env qs))) ∧ ∀ r ∈ l, ¬ r.InSummary := by
  induction qs generalizing i es w with
  | nil => exact ⟨w.files, [], by simp [antiferroLoop, afJobs, Env.energies], by simp⟩
  | cons q qs ih =>
    by_cases hq : q = 0
    · subst hq
      rw [antiferroLoop, if_pos rfl, afJobs_zero] at *
      exact ih _ _ _ h
    · rw [afJobs_cons hq, allOk_cons] at h
      rw [loop_cons hq _ _ _ h.1, afJobs_cons hq, energies_cons]
      obtain ⟨f, l, h1, h2⟩ := ih (after (i + 1) (env.sol (.antiferro (qvec env.recip q)) w.calls).spins)
        (es ++ [env.en (.antiferro (qvec env.recip q)) w.calls])
        ⟨w.recs ++ afBlock env q (i + 1) w.calls,
          append w.files (.antiferro (i + 1)) (env.sol (.antiferro (qvec env.recip q)) w.calls).history, w.calls + 1⟩ h.2
      refine ⟨f, afBlock env q (i + 1) w.calls ++ l, ?_, ?_⟩
      · rw [h1]
        simp [Nat.add_assoc, Nat.add_comm 1]
      · intro r hr
        rcases List.mem_append.mp hr with hr | hr
        · exact afBlock_not _ _ _ r hr
        · exact h2 r hr

theorem loop_inv (qs : List (V3 ℤ)) (i : ℕ) (es : List ℝ) (w : World) {w' : World} {xs : List ℝ}
    (h : antiferroLoop env qs i es w = some (w', .ok xs)) : env.AllOk w.calls (afJobs env qs) := by
  induction qs generalizing i es w with
  | nil => exact allOk_nil _
  | cons q qs ih =>
    by_cases hq : q = 0
    · subst hq
      rw [antiferroLoop, if_pos rfl] at h
      rw [afJobs_zero]
      exact ih _ _ _ h
    · rw [afJobs_cons hq, allOk_cons]
      have hok : env.Ok (.antiferro (qvec env.recip q)) w.calls := by
        rw [antiferroLoop, if_neg hq] at h
        obtain ⟨w1, s, h1, h2⟩ := andThen_ok h
        obtain ⟨w2, u, h3, h4⟩ := andThen_ok h2
        cases he : env.energy (.antiferro (qvec env.recip q)) s with
        | error e => rw [he] at h4; cases h4
        | ok x => exact ⟨s, x, (optimize_inv h1).1, by simpa using table_inv (Nat.zero_le _) h3, he⟩
      refine ⟨hok, ?_⟩
      rw [loop_cons hq _ _ _ hok] at h
      exact ih _ _ _ h

theorem afJobs_all : afJobs env qrels = jobsOf env.recip (Str.lit "antiferro") := by
  have h : Str.lit "antiferro" ≠ Str.lit "ferro" := by decide
  rw [jobsOf, if_neg h, if_pos rfl]
  rfl

theorem antiferro_ok (w : World) (h : env.AllOk w.calls (jobsOf env.recip (Str.lit "antiferro"))) :
    ∃ f l, minimizeAntiferro env w = some (⟨w.recs ++ l, f, w.calls + (jobsOf env.recip (Str.lit "antiferro")).length⟩,
      .ok (env.energies w.calls (jobsOf env.recip (Str.lit "antiferro")))) ∧ ∀ r ∈ l, ¬ r.InSummary := by
  rw [← afJobs_all] at *
  obtain ⟨f, l, h1, h2⟩ := loop_ok qrels 0 [] (w.write [.start (Str.lit "antiferromagnetic")]) h
  refine ⟨f, .start (Str.lit "antiferromagnetic") :: l, ?_, ?_⟩
  · rw [minimizeAntiferro, h1]
    simp [World.write]
  · intro r hr
    rcases List.mem_cons.mp hr with rfl | hr
    · exact fun h => h
    · exact h2 r hr

theorem antiferro_inv {w w' : World} {xs : List ℝ} (h : minimizeAntiferro env w = some (w', .ok xs)) :
    env.AllOk w.calls (jobsOf env.recip (Str.lit "antiferro")) := by
  rw [← afJobs_all]
  exact loop_inv _ _ _ (w.write [.start (Str.lit "antiferromagnetic")]) h

/-! ### All types -/

/-- The elements of `energies`. -/
noncomputable def vals (env : Env) : List Str → ℕ → List Val
  | [], _ => []
  | g :: gs, c =>
    (if g = Str.lit "ferro" then [.num (env.en .ferro c)]
     else if g = Str.lit "antiferro" then [.list (env.energies c (jobsOf env.recip g))]
     else if g = Str.lit "spiral" then [.num (env.en .spiral c)] else []) ++
      vals env gs (c + (jobsOf env.recip g).length)

theorem jobs_cons (recip : M3 ℝ) (g : Str) (gs : List Str) : jobs recip (g :: gs) = jobsOf recip g ++ jobs recip gs := by
  simp [jobs]

theorem ne_af : Str.lit "antiferro" ≠ Str.lit "ferro" := by decide
theorem ne_sf : Str.lit "spiral" ≠ Str.lit "ferro" := by decide
theorem ne_sa : Str.lit "spiral" ≠ Str.lit "antiferro" := by decide

theorem jobsOf_ferro (recip : M3 ℝ) : jobsOf recip (Str.lit "ferro") = [.ferro] := by simp [jobsOf]
theorem jobsOf_spiral (recip : M3 ℝ) : jobsOf recip (Str.lit "spiral") = [.spiral] := by simp [jobsOf, ne_sf, ne_sa]

theorem collect_ok (gs : List Str) (es : List Val) (w : World) (h : env.AllOk w.calls (jobs env.recip gs)) :
    ∃ f l, collect env gs es w = some (⟨w.recs ++ l, f, w.calls + (jobs env.recip gs).length⟩,
      .ok (es ++ vals env gs w.calls)) ∧ ∀ r ∈ l, ¬ r.InSummary := by
  induction gs generalizing es w with
  | nil => exact ⟨w.files, [], by simp [collect, vals, jobs], by simp⟩
  | cons g gs ih =>
    rw [jobs_cons, allOk_append] at h
    have block_not : ∀ c g, ∀ r ∈ env.block g c, ¬ r.InSummary := by
      intro c g r hr
      unfold Env.block at hr
      split at hr
      · simp only [List.mem_append, List.mem_cons, List.not_mem_nil, or_false] at hr
        rcases hr with (rfl | rfl) | hr
        · exact fun h => h
        · exact fun h => h
        · exact rows_not r hr
      · simp only [List.mem_append, List.mem_cons, List.not_mem_nil, or_false] at hr
        rcases hr with ((rfl | rfl) | hr) | rfl | rfl
        · exact fun h => h
        · exact fun h => h
        · exact rows_not r hr
        · exact fun h => h
        · exact fun h => h
    have step : ∀ (v : List Val) (m : List Rec) (w1 : World), w1.recs = w.recs ++ m →
        w1.calls = w.calls + (jobsOf env.recip g).length → (∀ r ∈ m, ¬ r.InSummary) →
        vals env (g :: gs) w.calls = v ++ vals env gs (w.calls + (jobsOf env.recip g).length) →
        ∃ f l, collect env gs (es ++ v) w1 = some (⟨w.recs ++ l, f, w.calls + (jobs env.recip (g :: gs)).length⟩,
          .ok (es ++ vals env (g :: gs) w.calls)) ∧ ∀ r ∈ l, ¬ r.InSummary := by
      intro v m w1 h1 h2 h3 h4
      obtain ⟨f, l, h5, h6⟩ := ih (es ++ v) w1 (by rw [h2]; exact h.2)
      refine ⟨f, m ++ l, ?_, ?_⟩
      · rw [h5, h1, h2, h4, jobs_cons]
        simp [Nat.add_assoc]
      · intro r hr
        rcases List.mem_append.mp hr with hr | hr
        · exact h3 r hr
        · exact h6 r hr
    rw [collect]
    by_cases h1 : g = Str.lit "ferro"
    · subst h1
      rw [if_pos rfl]
      rw [jobsOf_ferro, allOk_cons] at h
      obtain ⟨f, hf⟩ := ferro_ok h.1.1
      rw [hf]
      exact step _ _ _ rfl (by rw [jobsOf_ferro]; rfl) (block_not _ _) (by simp [vals])
    rw [if_neg h1]
    by_cases h2 : g = Str.lit "antiferro"
    · subst h2
      rw [if_pos rfl]
      obtain ⟨f, l, hf, hl⟩ := antiferro_ok w h.1
      rw [hf]
      exact step _ l _ rfl rfl hl (by simp [vals, ne_af])
    rw [if_neg h2]
    by_cases h3 : g = Str.lit "spiral"
    · subst h3
      rw [if_pos rfl]
      rw [jobsOf_spiral, allOk_cons] at h
      obtain ⟨f, hf⟩ := spiral_ok h.1.1
      rw [hf]
      exact step _ _ _ rfl (by rw [jobsOf_spiral]; rfl) (block_not _ _) (by simp [vals, ne_sf, ne_sa])
    rw [if_neg h3]
    have := step [] [] w (by simp) (by simp [jobsOf, h1, h2, h3]) (by simp) (by simp [vals, h1, h2, h3])
    simpa using this

theorem collect_inv (gs : List Str) (es : List Val) (w : World) {w' : World} {xs : List Val}
    (h : collect env gs es w = some (w', .ok xs)) : env.AllOk w.calls (jobs env.recip gs) := by
  induction gs generalizing es w with
  | nil => exact allOk_nil _
  | cons g gs ih =>
    rw [jobs_cons, allOk_append]
    rw [collect] at h
    by_cases h1 : g = Str.lit "ferro"
    · subst h1
      rw [if_pos rfl] at h
      obtain ⟨w1, x, h2, h3⟩ := andThen_ok h
      have hok := ferro_inv h2
      rw [jobsOf_ferro, allOk_cons]
      obtain ⟨f, hf⟩ := ferro_ok hok
      rw [hf] at h2
      simp only [Option.some.injEq, Prod.mk.injEq] at h2
      obtain ⟨rfl, -⟩ := h2
      exact ⟨⟨hok, allOk_nil _⟩, ih _ _ h3⟩
    rw [if_neg h1] at h
    by_cases h2 : g = Str.lit "antiferro"
    · subst h2
      rw [if_pos rfl] at h
      obtain ⟨w1, x, h2, h3⟩ := andThen_ok h
      have hok := antiferro_inv h2
      obtain ⟨f, l, hf, _⟩ := antiferro_ok w hok
      rw [hf] at h2
      simp only [Option.some.injEq, Prod.mk.injEq] at h2
      obtain ⟨rfl, -⟩ := h2
      exact ⟨hok, ih _ _ h3⟩
    rw [if_neg h2] at h
    by_cases h3 : g = Str.lit "spiral"
    · subst h3
      rw [if_pos rfl] at h
      obtain ⟨w1, x, h2, h3⟩ := andThen_ok h
      have hok := spiral_inv h2
      rw [jobsOf_spiral, allOk_cons]
      obtain ⟨f, hf⟩ := spiral_ok hok
      rw [hf] at h2
      simp only [Option.some.injEq, Prod.mk.injEq] at h2
      obtain ⟨rfl, -⟩ := h2
      exact ⟨⟨hok, allOk_nil _⟩, ih _ _ h3⟩
    rw [if_neg h3] at h
    refine ⟨by simp [jobsOf, h1, h2, h3, allOk_nil], ?_⟩
    have e : (jobsOf env.recip g).length = 0 := by simp [jobsOf, h1, h2, h3]
    rw [e]
    exact ih _ _ h

end Magnopy.Minimize
