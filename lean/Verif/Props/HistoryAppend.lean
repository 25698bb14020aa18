import Verif.Props.HistoryText
import Verif.Lemmas.HistorySample

/-!
# Property C80: several histories in one file
-/

set_option autoImplicit false
set_option linter.unusedSectionVars false

namespace Magnopy.History

open Optimize Txt EnergyObj

variable {X : Type} {F : NumFmt ℝ} {float : Str → Option ℝ}

/-- A line with something in it. -/
def Inked (l : Str) : Prop := (l.any fun c => !Str.isSpace c) = true

theorem Inked.append_right {l : Str} (h : Inked l) (a : Str) : Inked (a ++ l) := by
  rw [Inked, List.any_append, h, Bool.or_true]

theorem inked_of_split {l : Str} (h : l.split ≠ []) : Inked l := by
  by_contra hn
  apply h
  rw [Inked, Bool.not_eq_true, List.any_eq_false] at hn
  clear h
  induction l with
  | nil => rfl
  | cons c l ih =>
    have hc : Str.isSpace c = true := by simpa using hn c (by simp)
    rw [Str.split.eq_def]
    simp only [hc, if_true]
    exact ih fun a ha => hn a (by simp [ha])

/-- The last line of a text goes on with the first line of the next text. -/
theorem linesOf_append (a b h : Str) (t : List Str) (hb : Logo.linesOf b = h :: t) :
    ∃ L l, Logo.linesOf a = L ++ [l] ∧ Logo.linesOf (a ++ b) = L ++ (l ++ h) :: t := by
  induction a with
  | nil => exact ⟨[], [], rfl, by simpa using hb⟩
  | cons c a ih =>
    obtain ⟨L, l, h1, h2⟩ := ih
    rw [List.cons_append, Logo.linesOf, Logo.linesOf, h1, h2]
    split
    · exact ⟨[] :: L, l, rfl, rfl⟩
    · cases L with
      | nil => exact ⟨[], c :: l, rfl, rfl⟩
      | cons u L => exact ⟨(c :: u) :: L, l, rfl, rfl⟩

theorem line_inked (hF : Reads F float) (C : Columns X) (r : Record X) : Inked (line F C r) := by
  apply inked_of_split
  rw [(spaced_line F (fun x => (hF.fixed 8 x).1) (fun x => (hF.sci 8 x).1) C r).split]
  simp

theorem header_inked {C : Columns X} (hC : C.Good) (n : ℕ) : Inked (header C n) := by
  apply inked_of_split
  rw [(spaced_header hC n).split]
  simp [titles]

/-- The last line of what a run writes. -/
theorem last_line (hF : Reads F float) {C : Columns X} (hC : C.Good) (n : ℕ) (bs : List (List (Record X))) {L : List Str}
    {l : Str} (h : Logo.linesOf (runText F C .file n bs) = L ++ [l]) :
    (bs.getLast? = some [] ∧ l = []) ∨ (bs.getLast? ≠ some [] ∧ Inked l) := by
  rw [linesOf_file hF hC] at h
  rcases bs.eq_nil_or_concat with rfl | ⟨bs, b, rfl⟩
  · have : [header C n] = L ++ [l] := by simpa using h
    obtain ⟨-, h2⟩ := List.append_inj' (s₁ := []) this rfl
    cases h2
    exact .inr ⟨by simp, header_inked hC n⟩
  · rw [List.concat_eq_append] at h ⊢
    rw [List.getLast?_concat]
    rw [List.flatMap_append, ← List.cons_append] at h
    rcases b.eq_nil_or_concat with rfl | ⟨b, q, rfl⟩
    · rw [List.flatMap_singleton, List.map_nil, blockLines, if_pos rfl] at h
      obtain ⟨-, h2⟩ := List.append_inj' h rfl
      exact .inl ⟨rfl, (List.cons.inj h2).1.symm⟩
    · refine .inr ⟨by simp, ?_⟩
      rw [List.concat_eq_append, List.flatMap_singleton, List.map_append, blockLines, if_neg (by simp), ← List.append_assoc] at h
      obtain ⟨-, h2⟩ := List.append_inj' h rfl
      cases h2
      exact line_inked hF C q

/-- Two histories in one file are apart exactly if the first one ends with an empty block. -/
theorem apart_iff (hF : Reads F float) {C : Columns X} (hC : C.Good) (n n' : ℕ) (bs bs' : List (List (Record X))) :
    textLines (runText F C .file n bs ++ runText F C .file n' bs') =
      textLines (runText F C .file n bs) ++ textLines (runText F C .file n' bs') ↔ bs.getLast? = some [] := by
  have hb := linesOf_file hF hC n' bs'
  obtain ⟨L, l, h1, h2⟩ := linesOf_append (runText F C .file n bs) _ _ _ hb
  have hh := header_inked hC n'
  have hlh : Inked (l ++ header C n') := hh.append_right l
  have hpos : ∀ (a : Str) (t : List Str), Inked a → (a :: t).filter (fun l => l.any fun c => !Str.isSpace c) =
      a :: t.filter (fun l => l.any fun c => !Str.isSpace c) := fun a t ha => by
    rw [Inked] at ha
    rw [List.filter_cons, if_pos ha]
  rw [textLines, textLines, textLines, h2, h1, hb, List.filter_append, List.filter_append, hpos _ _ hlh, hpos _ _ hh]
  rcases last_line hF hC n bs h1 with ⟨e, rfl⟩ | ⟨e, hl⟩
  · simp [e]
  · rw [hpos _ _ hl]
    simp only [e, iff_false]
    intro h
    have := congrArg List.length h
    simp at this

/-- The blocks before the end are not empty, and what is left at the end is empty after a multiple of `history_step`. -/
theorem blocks_spec {P : Problem X} {E : EnergyObj ℝ} {o : Options} {x : X} {S : ℕ → OptState X} {n : ℕ}
    (h : Turns P E o x S n) {c : ℤ} (hc : o.history = some c) : ∀ i ≤ n,
      (∀ b ∈ (S i).written, b ≠ []) ∧ ((S i).pending = [] ↔ 0 < i ∧ c ∣ (i : ℤ)) := by
  intro i
  induction i with
  | zero => intro _; simp [h.zero, initial]
  | succ i ih =>
    intro hi
    obtain ⟨k, p, mem, lam, t⟩ := iterate_spec (h.turn i hi)
    obtain ⟨h1, h2⟩ := ih (by omega)
    have hcnt := h.counter i (by omega)
    rcases t.history with ⟨h0, _⟩ | ⟨c', hc', _, ⟨hm, hp, hw⟩ | ⟨hm, hp, hw⟩⟩
    · rw [hc] at h0; cases h0
    · rw [hc] at hc'; cases hc'
      rw [hcnt] at hm
      refine ⟨?_, ?_⟩
      · rw [hw]
        intro b hb
        rcases List.mem_append.1 hb with hb | hb
        · exact h1 b hb
        · rw [List.mem_singleton] at hb; subst hb; simp
      · simp only [hp, true_iff]
        exact ⟨by omega, Int.dvd_of_emod_eq_zero hm⟩
    · rw [hc] at hc'; cases hc'
      rw [hcnt] at hm
      refine ⟨by rw [hw]; exact h1, ?_⟩
      rw [hp]
      simp only [List.append_eq_nil_iff, List.cons_ne_nil, and_false, false_iff, not_and]
      exact fun _ hd => hm (Int.emod_eq_zero_of_dvd hd)

theorem last_block {P : Problem X} {E : EnergyObj ℝ} {o : Options} {fuel : ℕ} {x : X} {r : Outcome X} {c : ℤ}
    (hc : o.history = some c) (hm : o.maxIter = none) (h : run P E o fuel x = some (.ok r)) :
    r.written.getLast? = some [] ↔ 1 < r.written.flatten.length ∧ c ∣ (r.written.flatten.length - 1 : ℤ) := by
  obtain ⟨n, S, hT, hrun, hx, he⟩ := run_spec h
  have hr := records_full hT hc n (le_refl _)
  rcases he with ⟨_, ⟨N, hN, _⟩, _⟩ | ⟨_, e⟩
  · rw [hm] at hN; cases hN
  · rw [flushed, hc] at e
    have hl := congrArg List.length hr
    rw [List.length_append, List.length_map, List.length_range] at hl
    have hl' : r.written.flatten.length = n + 1 := by
      rw [e, List.flatten_append, List.length_append, List.flatten_singleton, hl]
    rw [hl', e, List.getLast?_concat, Option.some.injEq, (blocks_spec hT hc n (le_refl _)).2]
    have : ((n + 1 : ℕ) : ℤ) - 1 = n := by push_cast; ring
    rw [this]
    constructor
    · exact fun ⟨a, b⟩ => ⟨by omega, b⟩
    · exact fun ⟨a, b⟩ => ⟨by omega, b⟩

/-- **C80, two runs with one file (ferro case).** The history of a second run stands below that of the first one exactly if the
first one has more than one record and `history_step` divides their number minus one.  Otherwise the titles of the second run
stand in the last line of the first one. -/
theorem C80_append_ferro (hF : Reads F float) (E : EnergyObj ℝ) (muB : ℝ) (cell : ℕ → M3 ℝ) (rnd : Random)
    (guess : Option (Param.ArrayLike ℝ)) (tol : Option (List ℝ)) (c : ℤ) (fuel : ℕ) (r : Outcome (List (V3 ℝ)))
    (h : optimizeFerro E muB cell rnd guess tol none (some c) fuel = some (.ok r)) (n : ℕ)
    (bs : List (List (Record (List (V3 ℝ))))) :
    textLines (runText F ferroColumns .file E.spins.length r.written ++ runText F ferroColumns .file n bs) =
        textLines (runText F ferroColumns .file E.spins.length r.written) ++ textLines (runText F ferroColumns .file n bs) ↔
      1 < r.written.flatten.length ∧ c ∣ (r.written.flatten.length - 1 : ℤ) := by
  rw [apart_iff hF ferro_good]
  rw [optimizeFerro] at h
  cases hx : startFerro E.spins.length rnd.spins guess with
  | error e => rw [hx] at h; cases h
  | ok x =>
    rw [hx] at h
    simp only at h
    cases ht : tolerances 2 tol with
    | error e => rw [ht] at h; cases h
    | ok p =>
      rw [ht] at h
      exact last_block rfl rfl h

/-- **C80, two runs with one file (antiferro case).** -/
theorem C80_append_antiferro (hF : Reads F float) (E : EnergyObj ℝ) (muB : ℝ) (cell : ℕ → M3 ℝ) (rnd : Random)
    (q : Option (Param.ArrayLike ℝ)) (guess : Option (List (Option (Param.ArrayLike ℝ)))) (tol : Option (List ℝ)) (c : ℤ)
    (fuel : ℕ) (r : Outcome ConeX)
    (h : optimizeAntiferro E muB cell rnd q guess tol none (some c) fuel = some (.ok r)) (n : ℕ)
    (bs : List (List (Record ConeX))) :
    textLines (runText F coneColumns .file E.spins.length r.written ++ runText F coneColumns .file n bs) =
        textLines (runText F coneColumns .file E.spins.length r.written) ++ textLines (runText F coneColumns .file n bs) ↔
      1 < r.written.flatten.length ∧ c ∣ (r.written.flatten.length - 1 : ℤ) := by
  rw [apart_iff hF cone_good]
  rw [optimizeAntiferro] at h
  cases hx : startAntiferro E.spins.length rnd q guess with
  | error e => rw [hx] at h; cases h
  | ok x =>
    rw [hx] at h
    simp only at h
    cases ht : tolerances 3 tol with
    | error e => rw [ht] at h; cases h
    | ok p =>
      rw [ht] at h
      exact last_block rfl rfl h

/-- **C80, two runs with one file (spiral case).** -/
theorem C80_append_spiral (hF : Reads F float) (E : EnergyObj ℝ) (muB : ℝ) (cell : ℕ → M3 ℝ) (rnd : Random)
    (guess : Option (List (Option (Param.ArrayLike ℝ)))) (tol : Option (List ℝ)) (c : ℤ) (fuel : ℕ) (r : Outcome ConeX)
    (h : optimizeSpiral E muB cell rnd guess tol none (some c) fuel = some (.ok r)) (n : ℕ)
    (bs : List (List (Record ConeX))) :
    textLines (runText F coneColumns .file E.spins.length r.written ++ runText F coneColumns .file n bs) =
        textLines (runText F coneColumns .file E.spins.length r.written) ++ textLines (runText F coneColumns .file n bs) ↔
      1 < r.written.flatten.length ∧ c ∣ (r.written.flatten.length - 1 : ℤ) := by
  rw [apart_iff hF cone_good]
  rw [optimizeSpiral] at h
  cases hx : startSpiral E.spins.length rnd guess with
  | error e => rw [hx] at h; cases h
  | ok x =>
    rw [hx] at h
    simp only at h
    cases ht : tolerances 3 tol with
    | error e => rw [ht] at h; cases h
    | ok p =>
      rw [ht] at h
      exact last_block rfl rfl h

theorem screen_apart (hF : Reads F float) {C : Columns X} (hC : C.Good) (n n' : ℕ) (bs bs' : List (List (Record X))) :
    textLines (runText F C .screen n bs ++ runText F C .screen n' bs') =
      textLines (runText F C .screen n bs) ++ textLines (runText F C .screen n' bs') := by
  have hb := linesOf_screen hF hC n' bs'
  obtain ⟨L, l, h1, h2⟩ := linesOf_append (runText F C .screen n bs) _ _ _ hb
  have h3 := linesOf_screen hF hC n bs
  rw [h1] at h3
  obtain ⟨-, h4⟩ := List.append_inj' h3 rfl
  cases h4
  rw [textLines, textLines, textLines, h2, h1, hb]
  simp

/-- On the screen the histories of two runs always stand below each other. -/
theorem C80_append_screen (hF : Reads F float) (n n' : ℕ) :
    (∀ bs bs' : List (List (Record (List (V3 ℝ)))),
      textLines (runText F ferroColumns .screen n bs ++ runText F ferroColumns .screen n' bs') =
        textLines (runText F ferroColumns .screen n bs) ++ textLines (runText F ferroColumns .screen n' bs')) ∧
    ∀ bs bs' : List (List (Record ConeX)),
      textLines (runText F coneColumns .screen n bs ++ runText F coneColumns .screen n' bs') =
        textLines (runText F coneColumns .screen n bs) ++ textLines (runText F coneColumns .screen n' bs') :=
  ⟨fun bs bs' => screen_apart hF ferro_good n n' bs bs', fun bs bs' => screen_apart hF cone_good n n' bs bs'⟩

/-! ### The wrong claims -/

/-- If the first step is accepted and brings everything below the tolerances, the history has two records. -/
theorem run_two {P : Problem X} {E : EnergyObj ℝ} {t0 : ℝ} {t1 ts : List ℝ} {c : ℤ} {x : X} (hm : 0 < E.m)
    (hpos : (⟨t0, t1, none, some c⟩ : Options).Positive) (hc : 1 < c)
    (ha : Accepts P E.wolfeC1 E.wolfeC2 x (P.grad x).1 1) (ht : P.target (P.grad x).2 = .ok ts)
    (he : |P.energy x - P.energy (P.update x (P.grad x).1 1)| ≤ t0) (hts : ∀ p ∈ ts.zip t1, p.1 ≤ p.2) :
    run P E ⟨t0, t1, none, some c⟩ 2 x = some (.ok ⟨P.update x (P.grad x).1 1,
      [[(P.energy x, t1.map fun a => 2 * a, x), (P.energy (P.update x (P.grad x).1 1), ts, P.update x (P.grad x).1 1)]]⟩) := by
  obtain ⟨o, ho⟩ : ∃ o : Options, o = ⟨t0, t1, none, some c⟩ := ⟨_, rfl⟩
  rw [← ho] at hpos ⊢
  have hr : Running o (initial P o x) := (running_initial_iff P o x).mpr hpos
  have hl : ¬ AtLimit o (initial P o x) := by
    rintro ⟨n, hn, _⟩; rw [ho] at hn; cases hn
  have hm0 : E.m.toNat ≠ 0 := by omega
  have hd : searchDirection E.m.toNat P.size (initial P o x).mem (initial P o x).k (P.grad (initial P o x).x).1
      (initial P o x).prev = .ok (0, (P.grad x).1, Optimize.Mem.zero) := by
    simp [searchDirection, initial, hm0]
  have hls : lineSearch P E.wolfeC1 E.wolfeC2 E.wolfeIterMax (initial P o x).x (P.grad x).1 = .ok 1 := by
    show lineSearch P E.wolfeC1 E.wolfeC2 E.wolfeIterMax x (P.grad x).1 = .ok 1
    rw [lineSearch, lineLoop, if_pos ha]
  have ht' : P.target (P.grad (initial P o x).x).2 = .ok ts := ht
  have hh : o.history = some c := by rw [ho]
  have hc0 : c ≠ 0 := by omega
  have hmod : ¬ (((initial P o x).counter + 1 : ℕ) : ℤ) % c = 0 := by
    have : (((initial P o x).counter + 1 : ℕ) : ℤ) = 1 := rfl
    rw [this, Int.emod_eq_of_lt (by norm_num) hc]
    norm_num
  obtain ⟨s', hs'⟩ : ∃ s', iterate P E o (initial P o x) = .ok s' := by
    simp only [iterate, hd, hls, ht', hh, hc0, hmod, if_false]
    exact ⟨_, rfl⟩
  obtain ⟨k, p, mem, lam, t⟩ := iterate_spec hs'
  have hdir := t.dir
  rw [hd] at hdir
  cases hdir
  have hline := t.line
  rw [hls] at hline
  cases hline
  have htt := t.targets
  rw [ht'] at htt
  have htt := Except.ok.inj htt
  have hx : s'.x = P.update x (P.grad x).1 1 := t.x
  have hnr : ¬ Running o s' := by
    simp only [Running, not_or, not_lt, not_exists, not_and]
    refine ⟨?_, ?_⟩
    · rw [t.energyDiff, hx, ho]; exact he
    · rw [← htt, ho]; exact hts
  have hw : s'.written = [] ∧ s'.pending = [(P.energy x, t1.map fun a => 2 * a, x), (P.energy s'.x, s'.targets, s'.x)] := by
    rcases t.history with ⟨h0, _⟩ | ⟨c', hc', _, ⟨hm, hp, hw⟩ | ⟨hm, hp, hw⟩⟩
    · rw [hh] at h0; cases h0
    · rw [hh] at hc'; cases hc'; exact absurd hm hmod
    · rw [hp, hw, ho]; exact ⟨rfl, rfl⟩
  rw [run, if_neg (by omega), optLoop]
  simp only [hr, hl, if_true, if_false, hs']
  rw [optLoop]
  simp only [hnr, if_false, hh, hw.1, hw.2, hx, ← htt, List.nil_append]

open OneSpin in
/-- The run of the example with a history. -/
theorem flip_history (c : ℤ) (hc : 1 < c) : run prob (obj bx 0 10) ⟨1, [4], none, some c⟩ 2 [![0, 0, 1]] =
    some (.ok ⟨[![0, 0, -1]], [[(prob.energy [![0, 0, 1]], [2 * 4], [![0, 0, 1]]),
      (prob.energy [![0, 0, -1]], [Real.pi], [![0, 0, -1]])]]⟩) := by
  have hpi := Real.pi_gt_three
  have hpi4 := Real.pi_lt_four
  have hacc := accepts_one bx 0 10 aa 1 flip_G (by simp; positivity) (by
    rw [aa_eq, bx_eq, abs_of_nonneg (by nlinarith), abs_of_nonneg (by positivity)]; nlinarith)
  have ht : prob.target (prob.grad [![0, 0, 1]]).2 = .ok [Real.pi] := by
    have h2 : (prob.grad [![0, 0, 1]]).2 = [rowTorque prob.energy [![0, 0, 1]] 0] := rfl
    rw [h2, prob, torque_one _ _ _ _ _ 1 (by norm_num), one_mul, flip_G]
    simp [ferroProblem, targetFerro, maxNorm, norm3, Real.sqrt_sq Real.pi_pos.le]
  have hup : prob.update [![0, 0, 1]] (prob.grad [![0, 0, 1]]).1 1 = [![0, 0, -1]] := update_one bx 0 10 aa 1 flip_G
  have h := run_two (P := prob) (E := obj bx 0 10) (t0 := 1) (t1 := [4]) (c := c) (x := [![0, 0, 1]]) (by norm_num [obj])
    (.inl one_pos) hc hacc ht
    (by rw [hup, prob, energy_pole _ _ _ _ _ (-1) (by norm_num), energy_pole _ _ _ _ _ 1 (by norm_num)]; simp)
    (by simp; exact hpi4.le)
  rw [hup] at h
  simpa using h

open OneSpin in
/-- The same as a call of `optimize`. -/
theorem flip_optimize (c : ℤ) (hc : 1 < c) :
    optimizeFerro (obj bx 0 10) 1 (mat aa) ⟨[![0, 0, 1]], ![0, 0, 1], 0⟩ none (some [1, 4]) none (some c) 2 =
      some (.ok ⟨[![0, 0, -1]], [[(prob.energy [![0, 0, 1]], [2 * 4], [![0, 0, 1]]),
        (prob.energy [![0, 0, -1]], [Real.pi], [![0, 0, -1]])]]⟩) := by
  have hs : normalizeRows [![0, 0, (1 : ℝ)]] = [![0, 0, 1]] := by
    have h2 : norm3 ![0, 0, (1 : ℝ)] = 1 := by simp [norm3]
    simp only [normalizeRows, List.map_cons, List.map_nil]
    congr 1
    ext i
    fin_cases i <;> simp [EnergyObj.normalize, h2]
  have h1 : startFerro (obj bx 0 10).spins.length [![0, 0, 1]] none = .ok [![0, 0, 1]] := by
    have : startFerro (obj bx 0 10).spins.length [![0, 0, 1]] none = .ok (normalizeRows [![0, 0, (1 : ℝ)]]) := rfl
    rw [this, hs]
  rw [optimizeFerro, h1]
  exact flip_history c hc

open OneSpin in
theorem flip_good : (⟨[![0, 0, 1]], ![0, 0, 1], 0⟩ : Random).Good (obj bx 0 10).spins.length :=
  ⟨by simp, rfl, by simp⟩

/-- The claim that histories which are written to one file can be told apart. -/
def C80_append_statement (F : NumFmt ℝ) : Prop :=
  ∀ (E : EnergyObj ℝ) (muB : ℝ) (cell : ℕ → M3 ℝ) (rnd : Random) (guess : Option (Param.ArrayLike ℝ)) (tol : Option (List ℝ))
    (c : ℤ) (fuel : ℕ) (r : Outcome (List (V3 ℝ))), rnd.Good E.spins.length → GoodGuess guess →
    optimizeFerro E muB cell rnd guess tol none (some c) fuel = some (.ok r) →
    textLines (runText F ferroColumns .file E.spins.length r.written ++ runText F ferroColumns .file E.spins.length r.written) =
      textLines (runText F ferroColumns .file E.spins.length r.written) ++
        textLines (runText F ferroColumns .file E.spins.length r.written)

open OneSpin in
/-- **C80** is false for a file which is there already, with every formatter that can be read back. -/
theorem C80_append_false (hF : Reads F float) : ¬ C80_append_statement F := by
  intro h
  have h1 := flip_optimize 1000 (by norm_num)
  have h2 := h _ _ _ _ none _ _ _ _ flip_good trivial h1
  rw [C80_append_ferro hF _ _ _ _ _ _ _ _ _ h1] at h2
  simp at h2

/-- The claim that the torque in the last row is that of the configuration in this row. -/
def C80_torque_statement (F : NumFmt ℝ) (float : Str → Option ℝ) : Prop :=
  ∀ (E : EnergyObj ℝ) (muB : ℝ) (cell : ℕ → M3 ℝ) (rnd : Random) (guess : Option (Param.ArrayLike ℝ)) (tol : Option (List ℝ))
    (c : ℤ) (fuel : ℕ) (r : Outcome (List (V3 ℝ))), rnd.Good E.spins.length → GoodGuess guess →
    optimizeFerro E muB cell rnd guess tol none (some c) fuel = some (.ok r) → ∀ T rows row t,
    readTable float (runText F ferroColumns .file E.spins.length r.written) = some (T, rows) → rows.getLast? = some row →
    IsMaxNorm (rowTorques (ferroProblem E muB cell).energy r.x) t → Shown (column T row (Str.lit "Torque")) t

open OneSpin in
/-- **C80** is false for the torques: in the example the last row shows `π`, the torque is `π + 2`. -/
theorem C80_torque_false (hF : Reads F float) : ¬ C80_torque_statement F float := by
  intro h
  have h1 := flip_optimize 1000 (by norm_num)
  have hread := read_run hF ferro_good .file (obj bx 0 10).spins.length
    [[(prob.energy [![0, 0, 1]], [2 * 4], [![0, 0, 1]]), (prob.energy [![0, 0, -1]], [Real.pi], [![0, 0, -1]])]] (by
      intro q hq
      simp only [List.flatten_cons, List.flatten_nil, List.append_nil, List.mem_cons, List.not_mem_nil, or_false] at hq
      rcases hq with rfl | rfl <;> exact ⟨rfl, rfl⟩)
  have hmax : IsMaxNorm (rowTorques (ferroProblem (obj bx 0 10) 1 (mat aa)).energy [![0, 0, -1]]) (Real.pi + 2) := by
    have h2 : rowTorques (ferroProblem (obj bx 0 10) 1 (mat aa)).energy [![0, 0, -1]] = [![0, Real.pi + 2, 0]] := by
      have e : (Real.pi + 1 + -1 * (1 * (2 * bx)) / w) = Real.pi + 2 := by
        rw [neg_one_mul, neg_div, bx_eq]; ring
      have : rowTorques (ferroProblem (obj bx 0 10) 1 (mat aa)).energy [![0, 0, -1]] =
          [rowTorque (ferroProblem (obj bx 0 10) 1 (mat aa)).energy [![0, 0, -1]] 0] := rfl
      rw [this, torque_one _ _ _ _ _ (-1) (by norm_num), aa_eq, e]
    have hn : norm3 ![0, Real.pi + 2, 0] = Real.pi + 2 := by
      simp [norm3, Real.sqrt_sq (by positivity : (0 : ℝ) ≤ Real.pi + 2)]
    rw [h2]
    simp [IsMaxNorm, hn]
  have h2 := h _ _ _ _ none _ _ _ _ flip_good trivial h1 _ _ _ _ hread rfl hmax
  have h3 := (ferro_row hF (I := 1) (x := [![0, 0, -1]]) rfl (prob.energy [![0, 0, -1]]) Real.pi).torque
  rw [ferro_titles] at h2
  obtain ⟨y, hy, hy2⟩ := h2
  obtain ⟨z, hz, hz2⟩ := h3
  have : some y = some z := hy.symm.trans hz
  cases this
  have b1 := le_abs_self (y - Real.pi)
  have b2 := neg_abs_le (y - (Real.pi + 2))
  norm_num at hy2 hz2
  linarith

/-! ### Examples -/

/-- The conditions on formatting and reading are met by ordinary decimal notation. -/
example : Reads (decimal (K := ℝ)) sciOf := decimal_reads

/-- The titles for one spin. -/
example : header ferroColumns 1 = Str.lit "         Energy      Torque        S1_x        S1_y        S1_z" := by decide

/-- A formatter which prints every number as a one; the text of a run with two records, the second one in a block of its own. -/
example : runText ⟨fun _ _ => ['1'], fun _ _ => ['1']⟩ ferroColumns .file 1
    [[(0, [0], [![0, 0, 1]])], [(0, [0], [![0, 0, 1]])]] =
    Str.lit "         Energy      Torque        S1_x        S1_y        S1_z" ++
    Str.lit "\n              1           1           1           1           1" ++
    Str.lit "\n              1           1           1           1           1" := rfl

open OneSpin in
/-- The run of the example meets the hypotheses of `C80_ferro_partial` and `C80_append_ferro`; its text has two rows. -/
example : ∃ (r : Outcome (List (V3 ℝ))) (rows : List (List ℝ)),
    optimizeFerro (obj bx 0 10) 1 (mat aa) ⟨[![0, 0, 1]], ![0, 0, 1], 0⟩ none (some [1, 4]) none (some 1000) 2 = some (.ok r) ∧
    readTable sciOf (runText decimal ferroColumns .file 1 r.written) = some (ferroTitles 1, rows) ∧ rows.length = 2 := by
  have h1 := flip_optimize 1000 (by norm_num)
  have hread := read_run decimal_reads ferro_good .file 1
    [[(prob.energy [![0, 0, 1]], [2 * 4], [![0, 0, 1]]), (prob.energy [![0, 0, -1]], [Real.pi], [![0, 0, -1]])]] (by
      intro q hq
      simp only [List.flatten_cons, List.flatten_nil, List.append_nil, List.mem_cons, List.not_mem_nil, or_false] at hq
      rcases hq with rfl | rfl <;> exact ⟨rfl, rfl⟩)
  rw [ferro_titles] at hread
  exact ⟨_, _, h1, hread, rfl⟩

end Magnopy.History
