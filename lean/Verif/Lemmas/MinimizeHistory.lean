import Verif.Lemmas.Minimize

/-!
# Helper lemmas: history files of the antiferro minimisations
-/

set_option autoImplicit false

set_option linter.unusedSectionVars false

namespace Magnopy.Minimize

variable {env : Env}

theorem get?_set {α β : Type} [DecidableEq α] (d : PyDict α β) (k k' : α) (v : β) :
    (d.set k v).get? k' = if k' = k then some v else d.get? k' := by
  induction d with
  | nil => by_cases h : k = k' <;> simp [PyDict.set, PyDict.get?, h, eq_comm]
  | cons p d ih =>
    obtain ⟨a, b⟩ := p
    by_cases h : a = k
    · subst h
      by_cases h' : a = k'
      · subst h'; simp [PyDict.set, PyDict.get?]
      · have : k' ≠ a := fun e => h' e.symm
        simp [PyDict.set, PyDict.get?, h', this]
    · rw [PyDict.set, if_neg h, PyDict.get?, PyDict.get?]
      by_cases h' : a = k'
      · subst h'; simp [h]
      · rw [if_neg h', if_neg h', ih]

theorem content_append (f : PyDict HistFile (List (List (List (Optimize.Record Optimize.ConeX))))) (n k : HistFile)
    (h : List (List (Optimize.Record Optimize.ConeX))) :
    content (append f n h) k = content f k ++ if k = n then [h] else [] := by
  rw [content, append, get?_set]
  by_cases e : k = n
  · subst e; simp [content]
  · simp [e, content]

theorem Env.Full.after (hF : env.Full) (hne : env.atoms ≠ []) {job : Job} {n : ℕ} (h : env.Ok job n) (i : ℕ) :
    after i (env.sol job n).spins = env.atoms.length - 1 := by
  have hl := hF job n _ h.spec.1
  have : (env.sol job n).spins ≠ [] := by
    intro e
    rw [e] at hl
    exact hne (List.length_eq_zero_iff.mp hl.symm)
  rw [Minimize.after, if_neg this, hl]

/-- The history of the `c`-th minimisation, for the vector `q`. -/
noncomputable def histOf (env : Env) (q : V3 ℤ) (c : ℕ) := (env.sol (.antiferro (qvec env.recip q)) c).history

/-- Turns of the loop in which the counter starts from the number of atoms. -/
theorem loop_run (hF : env.Full) (hne : env.atoms ≠ []) (q : V3 ℤ) (qs rest : List (V3 ℤ)) (hq : ∀ p ∈ q :: qs, p ≠ 0)
    (es : List ℝ) (w : World) (h : env.AllOk w.calls (afJobs env (q :: qs))) :
    ∃ f, antiferroLoop env (q :: qs ++ rest) (env.atoms.length - 1) es w =
        antiferroLoop env rest (env.atoms.length - 1) (es ++ env.energies w.calls (afJobs env (q :: qs)))
          ⟨w.recs ++ ((q :: qs).mapIdx fun k p => afBlock env p env.atoms.length (w.calls + k)).flatten, f,
            w.calls + (qs.length + 1)⟩ ∧
      ∀ k, content f k = content w.files k ++ if k = .antiferro env.atoms.length then
        (q :: qs).mapIdx fun i p => histOf env p (w.calls + i) else [] := by
  have hpos : 0 < env.atoms.length := List.length_pos_of_ne_nil hne
  have hI : env.atoms.length - 1 + 1 = env.atoms.length := by omega
  induction qs generalizing q es w with
  | nil =>
    have h0 := hq q (by simp)
    rw [afJobs_cons h0, allOk_cons] at h
    refine ⟨append w.files (.antiferro env.atoms.length) (histOf env q w.calls), ?_, fun k => ?_⟩
    · rw [List.cons_append, loop_cons h0 _ _ _ h.1, hI, hF.after hne h.1, afJobs_cons h0, energies_cons]
      simp [afJobs, Env.energies, histOf]
    · rw [content_append]
      simp
  | cons q' qs ih =>
    have h0 := hq q (by simp)
    rw [afJobs_cons h0, allOk_cons] at h
    obtain ⟨f, h1, h2⟩ := ih q' (fun p hp => hq p (by simp at hp ⊢; tauto))
      (es ++ [env.en (.antiferro (qvec env.recip q)) w.calls])
      ⟨w.recs ++ afBlock env q env.atoms.length w.calls,
        append w.files (.antiferro env.atoms.length) (env.sol (.antiferro (qvec env.recip q)) w.calls).history, w.calls + 1⟩ h.2
    refine ⟨f, ?_, fun k => ?_⟩
    · rw [List.cons_append, loop_cons h0 _ _ _ h.1, hI, hF.after hne h.1, h1, afJobs_cons h0, energies_cons]
      simp [List.mapIdx_cons, Nat.add_assoc, Nat.add_comm 1]
    · rw [h2, content_append]
      by_cases hk : k = .antiferro env.atoms.length
      · simp [hk, List.mapIdx_cons, histOf, Nat.add_assoc, Nat.add_comm 1]
      · simp [hk]

/-- The vectors between the first and zero. -/
def seg1 : List (V3 ℤ) := (qrels.drop 1).take 12

/-- The vectors after the first after zero. -/
def seg2 : List (V3 ℤ) := qrels.drop 15

theorem qrels_split : qrels = ![-1, -1, -1] :: (seg1 ++ 0 :: ![0, 0, 1] :: seg2) := by decide
theorem nonzero_split : nonzero = ![-1, -1, -1] :: (seg1 ++ ![0, 0, 1] :: seg2) := by decide

theorem mapIdx_const {α β : Type} (l : List α) (F : ℕ → α → β) (G : ℕ → α → β) (h : ∀ k < l.length, ∀ a, F k a = G k a) :
    l.mapIdx F = l.mapIdx G := by
  apply List.ext_getElem (by simp)
  intro i h1 h2
  simp only [List.getElem_mapIdx]
  exact h i (by simpa using h1) _

theorem flatten_part (l : List (V3 ℤ)) (I m : ℕ) (F : ℕ → V3 ℤ → List (List (Optimize.Record Optimize.ConeX)))
    (G : ℕ → V3 ℤ → List (List (Optimize.Record Optimize.ConeX))) (k : HistFile)
    (hI : ∀ i < l.length, fileNumber I (i + m) = I) (hF : ∀ i < l.length, ∀ q, F (i + m) q = G i q) :
    (l.mapIdx fun i q => if k = .antiferro (fileNumber I (i + m)) then [F (i + m) q] else []).flatten =
      if k = .antiferro I then l.mapIdx G else [] := by
  have h : (l.mapIdx fun i q => if k = .antiferro (fileNumber I (i + m)) then [F (i + m) q] else []) =
      l.mapIdx fun i q => if k = .antiferro I then [G i q] else [] :=
    mapIdx_const _ _ _ fun i hi q => by rw [hI i hi, hF i hi]
  rw [h]
  by_cases hk : k = .antiferro I
  · simp only [hk, if_true]
    clear h hI hF
    induction l generalizing G with
    | nil => rfl
    | cons q l ih => simp only [List.mapIdx_cons, List.flatten_cons, ih]; rfl
  · simp only [hk, if_false]
    clear h hI hF
    rw [List.flatten_eq_nil_iff]
    intro x hx
    rw [List.mem_mapIdx] at hx
    obtain ⟨_, _, rfl⟩ := hx
    rfl

theorem loop_all_aux (hF : env.Full) (hne : env.atoms ≠ []) (w : World)
    (h : env.AllOk w.calls (jobsOf env.recip (Str.lit "antiferro"))) :
    ∃ f X, antiferroLoop env qrels 0 [] w =
        some (⟨w.recs ++ (nonzero.mapIdx fun k q => afBlock env q (fileNumber env.atoms.length k) (w.calls + k)).flatten, f,
          w.calls + 26⟩, .ok X) ∧
      ∀ k, content f k = content w.files k ++ (nonzero.mapIdx fun i q =>
        if k = .antiferro (fileNumber env.atoms.length i) then [histOf env q (w.calls + i)] else []).flatten := by
  have hI : env.atoms.length - 1 + 1 = env.atoms.length := by
    have := List.length_pos_of_ne_nil hne; omega
  have n0 : (![-1, -1, -1] : V3 ℤ) ≠ 0 := by decide
  have n1 : (![0, 0, 1] : V3 ℤ) ≠ 0 := by decide
  have l1 : seg1.length = 12 := by decide
  have l2 : seg2.length = 12 := by decide
  obtain ⟨a, s, hs⟩ : ∃ a s, seg1 = a :: s := ⟨_, _, rfl⟩
  obtain ⟨b, t, ht⟩ : ∃ b t, seg2 = b :: t := ⟨_, _, rfl⟩
  have hs12 : s.length = 11 := by rw [hs] at l1; simpa using l1
  have ht12 : t.length = 11 := by rw [ht] at l2; simpa using l2
  have hn1 : ∀ p ∈ a :: s, p ≠ 0 := by rw [← hs]; decide
  have hn2 : ∀ p ∈ b :: t, p ≠ 0 := by rw [← ht]; decide
  have aj1 : (afJobs env seg1).length = 12 := by rw [afJobs, List.length_map]; decide
  have aj : afJobs env qrels = .antiferro (qvec env.recip ![-1, -1, -1]) ::
      (afJobs env (a :: s) ++ (.antiferro (qvec env.recip ![0, 0, 1]) :: afJobs env (b :: t))) := by
    rw [qrels_split, afJobs_cons n0]
    congr 1
    rw [← hs, ← ht]
    simp only [afJobs, List.filter_append, List.map_append]
    congr 1
  have h' := h
  rw [← afJobs_all, aj] at h'
  rw [allOk_cons, allOk_append, allOk_cons] at h'
  obtain ⟨k1, k2, k3, k4⟩ := h'
  rw [← hs, aj1] at k3 k4
  rw [qrels_split, loop_cons n0 _ _ _ k1, hF.after hne k1, hs, ht, List.cons_append]
  obtain ⟨f1, e1, g1⟩ := loop_run hF hne a s (0 :: ![0, 0, 1] :: b :: t) hn1
    ([] ++ [env.en (.antiferro (qvec env.recip ![-1, -1, -1])) w.calls])
    ⟨w.recs ++ afBlock env ![-1, -1, -1] (0 + 1) w.calls,
      append w.files (.antiferro (0 + 1)) (env.sol (.antiferro (qvec env.recip ![-1, -1, -1])) w.calls).history, w.calls + 1⟩ k2
  rw [List.cons_append] at e1
  rw [e1, antiferroLoop, if_pos rfl, hI]
  have k3' : env.Ok (.antiferro (qvec env.recip ![0, 0, 1])) (w.calls + 1 + (s.length + 1)) := by rw [hs12]; exact k3
  rw [loop_cons n1 _ _ _ (w := ⟨_, _, w.calls + 1 + (s.length + 1)⟩) k3', hF.after hne k3']
  obtain ⟨f2, e2, g2⟩ := loop_run hF hne b t [] hn2
    ([] ++ [env.en (.antiferro (qvec env.recip ![-1, -1, -1])) w.calls] ++
        env.energies (w.calls + 1) (afJobs env (a :: s)) ++
        [env.en (.antiferro (qvec env.recip ![0, 0, 1])) (w.calls + 1 + (s.length + 1))])
    ⟨w.recs ++ afBlock env ![-1, -1, -1] (0 + 1) w.calls ++
        ((a :: s).mapIdx fun k p => afBlock env p env.atoms.length (w.calls + 1 + k)).flatten ++
        afBlock env ![0, 0, 1] (env.atoms.length + 1) (w.calls + 1 + (s.length + 1)),
      append f1 (.antiferro (env.atoms.length + 1))
        (env.sol (.antiferro (qvec env.recip ![0, 0, 1])) (w.calls + 1 + (s.length + 1))).history,
      w.calls + 1 + (s.length + 1) + 1⟩ (by rw [hs12]; exact k4)
  rw [List.append_nil, antiferroLoop] at e2
  refine ⟨f2, _, e2.trans (congrArg some (Prod.ext_iff.mpr ⟨?_, rfl⟩)), ?_⟩
  · simp only [World.mk.injEq, true_and]
    refine ⟨?_, ?_⟩
    · rw [nonzero_split, hs, ht]
      simp only [List.append_assoc, List.mapIdx_cons, List.flatten_cons, fileNumber]
      congr 1
      simp only [Nat.add_zero, if_true, List.mapIdx_append, List.flatten_append, List.mapIdx_cons, List.flatten_cons]
      congr 1
      simp only [List.length_cons, hs12]
      have i1 : s.mapIdx (fun i p => afBlock env p env.atoms.length (w.calls + 1 + (i + 1))) =
          s.mapIdx (fun i p => afBlock env p (if i + 1 + 1 = 0 then 1 else if i + 1 + 1 = 13 then env.atoms.length + 1
            else env.atoms.length) (w.calls + (i + 1 + 1))) := by
        apply mapIdx_const
        intro k hk p
        rw [hs12] at hk
        rw [if_neg (by omega), if_neg (by omega)]
        congr 1
        omega
      have i2 : t.mapIdx (fun i p => afBlock env p env.atoms.length (w.calls + 1 + (11 + 1) + 1 + (i + 1))) =
          t.mapIdx (fun i p => afBlock env p (if i + 1 + 1 + (11 + 1) + 1 = 0 then 1 else if i + 1 + 1 + (11 + 1) + 1 = 13
            then env.atoms.length + 1 else env.atoms.length) (w.calls + (i + 1 + 1 + (11 + 1) + 1))) := by
        apply mapIdx_const
        intro k hk p
        rw [if_neg (by omega), if_neg (by omega)]
        congr 1
        omega
      have j1 : w.calls + (0 + 1) = w.calls + 1 := by omega
      have j2 : w.calls + (0 + (11 + 1) + 1) = w.calls + 1 + (11 + 1) := by omega
      have j3 : w.calls + (0 + 1 + (11 + 1) + 1) = w.calls + 1 + (11 + 1) + 1 := by omega
      rw [← i1, ← i2, j1, j2, j3]
      simp
    · rw [hs12, ht12]
  · intro k
    rw [g2, content_append, g1, content_append, nonzero_split, hs, ht]
    have p1 := flatten_part (a :: s) env.atoms.length 1 (fun i q => histOf env q (w.calls + i))
      (fun i q => histOf env q (w.calls + 1 + i)) k
      (fun i hi => by
        rw [List.length_cons, hs12] at hi
        rw [fileNumber, if_neg (by omega), if_neg (by omega)])
      (fun i _ q => congrArg _ (by omega))
    have p2 := flatten_part (b :: t) env.atoms.length 14 (fun i q => histOf env q (w.calls + i))
      (fun i q => histOf env q (w.calls + 1 + (11 + 1) + 1 + i)) k
      (fun i hi => by rw [fileNumber, if_neg (by omega), if_neg (by omega)])
      (fun i _ q => congrArg _ (by omega))
    have split : ∀ F : ℕ → V3 ℤ → List (List (List (Optimize.Record Optimize.ConeX))),
        ((![-1, -1, -1] :: (a :: s ++ ![0, 0, 1] :: b :: t)).mapIdx F).flatten =
          F 0 ![-1, -1, -1] ++ (((a :: s).mapIdx fun i => F (i + 1)).flatten ++
            (F 13 ![0, 0, 1] ++ ((b :: t).mapIdx fun i => F (i + 14)).flatten)) := by
      intro F
      rw [List.mapIdx_cons, List.flatten_cons, List.mapIdx_append, List.flatten_append, List.mapIdx_cons (a := ![0, 0, 1]),
        List.flatten_cons]
      simp only [List.length_cons, hs12]
    rw [split]
    rw [p1, p2]
    simp [fileNumber, histOf, hs12]

theorem loop_all (hF : env.Full) (hne : env.atoms ≠ []) (w : World)
    (h : env.AllOk w.calls (jobsOf env.recip (Str.lit "antiferro"))) :
    ∃ f, antiferroLoop env qrels 0 [] w =
        some (⟨w.recs ++ (nonzero.mapIdx fun k q => afBlock env q (fileNumber env.atoms.length k) (w.calls + k)).flatten, f,
          w.calls + 26⟩, .ok (env.energies w.calls (jobsOf env.recip (Str.lit "antiferro")))) ∧
      ∀ k, content f k = content w.files k ++ (nonzero.mapIdx fun i q =>
        if k = .antiferro (fileNumber env.atoms.length i) then [histOf env q (w.calls + i)] else []).flatten := by
  obtain ⟨f, X, h1, h2⟩ := loop_all_aux hF hne w h
  obtain ⟨f', l, h3, -⟩ := loop_ok qrels 0 [] w (by rw [afJobs_all]; exact h)
  have h4 := h1.symm.trans h3
  simp only [Option.some.injEq, Prod.mk.injEq, Except.ok.injEq, List.nil_append, afJobs_all] at h4
  exact ⟨f, by rw [h1, h4.2], h2⟩

end Magnopy.Minimize
