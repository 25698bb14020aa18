import Verif.Lemmas.TxtLogAtoms

/-!
# Lemmas: the messages about the parameters of a model file
-/

set_option autoImplicit false
set_option linter.unusedSectionVars false

namespace Magnopy.Txt

open Log

section
variable {K : Type} [Field K] [LinearOrder K] {L : Lib K} {sec : Str → Option (List Line)} {names : List Str}
  {at' : ℕ → Str → Prop}

theorem foldl_fits {ι : Type*} {P : Msg → Prop} {l : List ι} {f : ι → Bool} {g : ι → Log} {a : Bool} {acc : Log} (ha : Fits P a acc)
    (h : ∀ i ∈ l, Fits P (f i) (g i)) : Fits P (a || l.any f) (l.foldl (fun acc i => acc.orElse (g i)) acc) := by
  induction l generalizing a acc with
  | nil => exact ha.cast (by simp)
  | cons i l ih =>
    rw [List.foldl_cons, List.any_cons, ← Bool.or_assoc]
    exact ih (ha.orElse (h i List.mem_cons_self)) fun j hj => h j (List.mem_cons_of_mem _ hj)

theorem initial_iff {l : Str} {c : Char} : (l.lower.split.headD []).startsWith [c] = true ↔ Initial l c := by
  rw [starts_head, ← lowWords_eq]
  constructor
  · intro h
    cases hw : lowWords l with
    | nil => rw [hw] at h; simp at h
    | cons w ws =>
      rw [hw] at h
      cases w with
      | nil => simp at h
      | cons d t =>
        have : d = c := by simpa using h
        exact ⟨t, ws, by rw [hw, this]⟩
  · rintro ⟨t, ws, h⟩
    rw [h]; simp

theorem initial_unique {l : Str} {c d : Char} (h : Initial l c) (h' : Initial l d) : c = d := by
  obtain ⟨t, ws, e⟩ := h
  obtain ⟨t', ws', e'⟩ := h'
  rw [e] at e'
  simp only [List.cons.injEq] at e'
  exact e'.1.1

theorem bondLoopLog_fits {ls : List Line} (H : ∀ l ∈ ls, at' l.2 l.1) {acc : Log} {a : Bool}
    (ha : Fits (Msg.Holds L sec names at') a acc) :
    Fits (Msg.Holds L sec names at') (a || (bondLoop L (ls.map Prod.fst)).1) (bondLoopLog L acc ls) := by
  induction ls generalizing acc a with
  | nil => exact ha.cast (by simp [bondLoop])
  | cons l ls ih =>
    have H' : ∀ x ∈ ls, at' x.2 x.1 := fun x hx => H x (List.mem_cons_of_mem _ hx)
    have one : ∀ p ∈ [l], at' p.2 p.1 := fun p hp => by rw [List.mem_singleton.1 hp]; exact H l List.mem_cons_self
    rw [List.map_cons, bondLoop, bondLoopLog]
    by_cases h1 : (l.1.lower.split.headD []).startsWith ['i'] = true
    · rw [if_pos h1, if_pos h1, ← Bool.or_assoc]
      exact ih H' (ha.orElse (keyBlockLog_fits (c := 'i') one (by simp) (initial_iff.1 h1) (by decide) (by simp)))
    · rw [if_neg h1, if_neg h1]
      by_cases h2 : (l.1.lower.split.headD []).startsWith ['d'] = true
      · rw [if_pos h2, if_pos h2, ← Bool.or_assoc]
        exact ih H' (ha.orElse (keyBlockLog_fits (c := 'd') one (by simp) (initial_iff.1 h2) (by decide) (by simp)))
      · rw [if_neg h2, if_neg h2]
        by_cases h3 : (l.1.lower.split.headD []).startsWith ['s'] = true
        · rw [if_pos h3, if_pos h3, ← Bool.or_assoc]
          exact ih H' (ha.orElse (keyBlockLog_fits (c := 's') one (by simp) (initial_iff.1 h3) (by decide) (by simp)))
        · rw [if_neg h3, if_neg h3]
          by_cases h4 : (l.1.lower.split.headD []).startsWith ['m'] = true
          · rw [if_pos h4, if_pos h4, ← Bool.or_assoc, ← List.map_take, ← List.map_cons (f := Prod.fst)]
            refine ih H' (ha.orElse (keyBlockLog_fits (c := 'm') (fun p hp => ?_) (by simp) (initial_iff.1 h4) (by decide) ?_))
            · rcases List.mem_cons.1 hp with rfl | hp
              · exact H _ List.mem_cons_self
              · exact H' p (List.mem_of_mem_take hp)
            · intro hn
              refine ⟨rfl, rfl, ?_⟩
              simp only [List.length_cons, List.length_take, List.length_nil] at hn ⊢
              omega
          · rw [if_neg h4, if_neg h4]
            exact ih H' ha

/-- The lines with the given first letter. -/
def startLines (c : Char) (ls : List Line) : List Line := ls.filter fun l => (l.1.lower.split.headD []).startsWith [c]

theorem bondLoop_counts (ls : List Line) : (bondLoop L (ls.map Prod.fst)).2 =
    ((startLines 'i' ls).length, (startLines 'd' ls).length, (startLines 's' ls).length, (startLines 'm' ls).length) := by
  induction ls with
  | nil => rfl
  | cons l ls ih =>
    have no : ∀ {c d : Char}, (l.1.lower.split.headD []).startsWith [c] = true → d ≠ c →
        ¬ (l.1.lower.split.headD []).startsWith [d] = true := fun h hd h' =>
      hd (initial_unique (initial_iff.1 h') (initial_iff.1 h))
    have yes' : ∀ {c}, (l.1.lower.split.headD []).startsWith [c] = true → startLines c (l :: ls) = l :: startLines c ls :=
      fun h => List.filter_cons_of_pos h
    have no' : ∀ {c}, ¬ (l.1.lower.split.headD []).startsWith [c] = true → startLines c (l :: ls) = startLines c ls :=
      fun h => List.filter_cons_of_neg h
    rw [List.map_cons, bondLoop]
    by_cases h1 : (l.1.lower.split.headD []).startsWith ['i'] = true
    · rw [if_pos h1, yes' h1, no' (no h1 (by decide)), no' (no h1 (by decide)), no' (no h1 (by decide)), ih]; rfl
    · rw [if_neg h1, no' h1]
      by_cases h2 : (l.1.lower.split.headD []).startsWith ['d'] = true
      · rw [if_pos h2, yes' h2, no' (no h2 (by decide)), no' (no h2 (by decide)), ih]; rfl
      · rw [if_neg h2, no' h2]
        by_cases h3 : (l.1.lower.split.headD []).startsWith ['s'] = true
        · rw [if_pos h3, yes' h3, no' (no h3 (by decide)), ih]; rfl
        · rw [if_neg h3, no' h3]
          by_cases h4 : (l.1.lower.split.headD []).startsWith ['m'] = true
          · rw [if_pos h4, yes' h4, ih]; rfl
          · rw [if_neg h4, no' h4, ih]

theorem start_two {c : Char} {ls : List Line} (h : 1 < (startLines c ls).length) :
    ∃ p q, [p, q].Sublist ls ∧ Initial p.1 c ∧ Initial q.1 c := by
  match hs : startLines c ls with
  | [] => rw [hs] at h; simp at h
  | [_] => rw [hs] at h; simp at h
  | p :: q :: t =>
    have hp : p ∈ startLines c ls := by rw [hs]; simp
    have hq : q ∈ startLines c ls := by rw [hs]; simp
    refine ⟨p, q, ?_, initial_iff.1 (List.mem_filter.1 hp).2, initial_iff.1 (List.mem_filter.1 hq).2⟩
    refine List.Sublist.trans ?_ (List.filter_sublist (p := fun l : Line => (l.1.lower.split.headD []).startsWith [c]))
    show [p, q].Sublist (startLines c ls)
    rw [hs]
    exact List.Sublist.cons_cons _ (List.Sublist.cons_cons _ (List.nil_sublist _))

theorem start_none {c : Char} {ls : List Line} (h : (startLines c ls).length = 0) {l : Line} (hl : l ∈ ls) : ¬ Initial l.1 c := by
  intro hi
  have := List.filter_eq_nil_iff.1 (List.length_eq_zero_iff.1 h) l hl
  exact this (initial_iff.2 hi)

theorem not_mem_of {w : Str} {l : List Str} (h : (!Str.mem w l) = true) : w ∉ l := by
  intro hm
  rw [Bool.not_eq_true', Str.mem, List.any_eq_false] at h
  exact h w hm (by simp)

theorem bondLog_fits {s b : List Line} (hs : sec (Str.lit "exchange") = some s) (hb : b <:+: s) (H : ∀ l ∈ b, at' l.2 l.1)
    (hne : b ≠ []) : Fits (Msg.Holds L sec names at') (badBond L names (b.map Prod.fst)) (bondLog L names b) := by
  unfold badBond bondLog
  simp only
  rw [headD_fst, tail_fst, bondLoop_counts]
  set h := b.headD ([], 0) with hh
  have hat : at' h.2 h.1 := H _ (headD_mem hne)
  have hd : b.head? = some (h.1, h.2) := head?_headD hne
  have hla := getLast?_getLastD hne
  have h1 : Fits (Msg.Holds L sec names at') (match h.1.split with
    | [a, b, i, j, k] =>
      badName L a || badName L b || !Str.mem a names || !Str.mem b names ||
        !(isInteger L i && isInteger L j && isInteger L k)
    | _ => true) (match h.1.split with
    | [a, b, i, j, k] =>
      ((((nameLog L a h.2).orElse (nameLog L b h.2)).and (Log.msg (!Str.mem a names) (.bondAtom h.2 1 a))).and
        (Log.msg (!Str.mem b names) (.bondAtom h.2 2 b))).and
        (Log.msg (!(isInteger L i && isInteger L j && isInteger L k)) (.integers h.2 [i, j, k]))
    | ws => Log.msg true (.bondHead h.2 ws)) := by
    match hw : h.1.split with
    | [a, b, i, j, k] =>
      refine ((((nameLog_fits hat (by rw [hw]; simp)).orElse (nameLog_fits hat (by rw [hw]; simp))).and
        (Fits.msg rfl fun hc => ?_)).and (Fits.msg rfl fun hc => ?_)).and (Fits.msg rfl fun hc => ?_)
      · exact ⟨not_mem_of hc, h.1, 0, hat, rfl, by omega, by rw [hw]; rfl, by rw [hw]; rfl⟩
      · exact ⟨not_mem_of hc, h.1, 1, hat, rfl, by omega, by rw [hw]; rfl, by rw [hw]; rfl⟩
      · refine ⟨h.1, a, b, hat, hw, rfl, ?_⟩
        simp only [Bool.not_eq_true', Bool.and_eq_false_iff, isInteger, Option.isSome_eq_false_iff, Option.isNone_iff_eq_none] at hc
        rcases hc with (hc | hc) | hc
        · exact ⟨i, by simp, hc⟩
        · exact ⟨j, by simp, hc⟩
        · exact ⟨k, by simp, hc⟩
    | [] => exact Fits.msg rfl fun _ => ⟨h.1, hat, hw, by simp⟩
    | [_] => exact Fits.msg rfl fun _ => ⟨h.1, hat, hw, by simp⟩
    | [_, _] => exact Fits.msg rfl fun _ => ⟨h.1, hat, hw, by simp⟩
    | [_, _, _] => exact Fits.msg rfl fun _ => ⟨h.1, hat, hw, by simp⟩
    | [_, _, _, _] => exact Fits.msg rfl fun _ => ⟨h.1, hat, hw, by simp⟩
    | _ :: _ :: _ :: _ :: _ :: _ :: _ => exact Fits.msg rfl fun _ => ⟨h.1, hat, hw, by simp⟩
  have h2 := bondLoopLog_fits (L := L) (sec := sec) (names := names) (ls := b.tail) (fun l hl => H l (List.mem_of_mem_tail hl)) h1
  have many : ∀ (c : Char) (key : String), (Str.lit key).head? = some c →
      Fits (Msg.Holds L sec names at') (decide (1 < (startLines c b.tail).length))
        (Log.msg (decide (1 < (startLines c b.tail).length)) (.bondTwice h.2 (Str.lit key) (b.getLastD ([], 0)).2)) := by
    intro c key hk
    refine Fits.msg rfl fun hc => ⟨s, b, _, _, hs, hb, hd, hat, hla, c, (Str.lit key).tail, ?_, start_two (by simpa using hc)⟩
    cases hl : Str.lit key with
    | nil => rw [hl] at hk; simp at hk
    | cons a t =>
      rw [hl] at hk
      simp only [List.head?_cons, Option.some.injEq] at hk
      rw [hk]; rfl
  have h7 : ∀ total, total = (startLines 'i' b.tail).length + (startLines 'd' b.tail).length + (startLines 's' b.tail).length +
      (startLines 'm' b.tail).length → decide (total = 0) = true →
      (Msg.bondEmpty h.2 (b.getLastD ([], 0)).2).Holds L sec names at' := by
    intro total ht hc
    refine ⟨s, b, _, _, hs, hb, hd, hat, hla, fun p hp c hcm => ?_⟩
    rw [decide_eq_true_eq] at hc
    simp only [List.mem_cons, List.not_mem_nil, or_false] at hcm
    rcases hcm with rfl | rfl | rfl | rfl
    all_goals exact start_none (by omega) hp
  have key := ((((h2.and (many 'm' "matrix" (by decide))).and (many 's' "symmetric" (by decide))).and
    (many 'd' "dmi" (by decide))).and (many 'i' "iso" (by decide))).and (Fits.msg rfl (h7 _ rfl))
  refine key.cast ?_
  generalize (decide (1 < (startLines 'm' b.tail).length)) = x1
  generalize (decide (1 < (startLines 's' b.tail).length)) = x2
  generalize (decide (1 < (startLines 'd' b.tail).length)) = x3
  generalize (decide (1 < (startLines 'i' b.tail).length)) = x4
  cases x1 <;> cases x2 <;> cases x3 <;> cases x4 <;> simp only [Bool.or_false, Bool.or_true, Bool.true_or] <;> rfl

theorem shortLog_fits {sym : Char} (hsym : sym = '-' ∨ sym = '=') {l : Line} (hl : at' l.2 l.1) (hc : Clean l.1) :
    Fits (Msg.Holds L sec names at') (isShort sym l.1) (shortLog sym l) := by
  refine Fits.msg rfl fun h => ?_
  obtain ⟨n, h1, h2⟩ := (isShort_iff hc).1 h
  have e : l.1.count sym = n := by rw [h2, List.count_replicate_self]
  exact ⟨hsym, by rw [e]; exact h1, by rw [e, ← h2]; exact hl⟩

theorem skipLog_fits {sym : Char} (hsym : sym = '-' ∨ sym = '=') {ls : List Line} (H : Lines at' ls) :
    Fits (Msg.Holds L sec names at') (skip sym (ls.map Prod.fst)).1 (skipLog sym ls) := by
  induction ls with
  | nil => exact Fits.nil
  | cons l ls ih =>
    rw [List.map_cons, skip, skipLog]
    simp only
    by_cases h : (!(isLong sym l.1 || isShort sym l.1)) = true
    · rw [if_pos h, if_pos h]; exact Fits.nil
    · rw [if_neg h, if_neg h]
      exact (shortLog_fits hsym (H.at' l List.mem_cons_self) (H.clean l List.mem_cons_self)).and
        (ih (H.sub fun x hx => List.mem_cons_of_mem _ hx))

theorem bodyLog_fits {sym : Char} (hsym : sym = '-' ∨ sym = '=') {ls : List Line} (H : Lines at' ls) {acc : Log} {a : Bool}
    (ha : Fits (Msg.Holds L sec names at') a acc) :
    Fits (Msg.Holds L sec names at') (a || (body sym (ls.map Prod.fst)).1) (bodyLog sym acc ls) := by
  induction ls generalizing acc a with
  | nil => exact ha.cast (by simp [body])
  | cons l ls ih =>
    rw [List.map_cons, body, bodyLog]
    by_cases h : isLong sym l.1 = true
    · rw [if_pos h, if_pos h]; exact ha.cast (by simp)
    · rw [if_neg h, if_neg h, ← Bool.or_assoc]
      exact ih (H.sub fun x hx => List.mem_cons_of_mem _ hx)
        (ha.orElse (shortLog_fits hsym (H.at' l List.mem_cons_self) (H.clean l List.mem_cons_self)))

theorem scanLog_fits {sym : Char} (hsym : sym = '-' ∨ sym = '=') {ls : List Line} (H : Lines at' ls) (fuel i : ℕ) {acc : Log}
    {a : Bool} (ha : Fits (Msg.Holds L sec names at') a acc) :
    Fits (Msg.Holds L sec names at') (a || (scan sym (ls.map Prod.fst) fuel i).1) (scanLog sym ls fuel i acc) := by
  induction fuel generalizing i acc a with
  | zero => exact ha.cast (by simp [scan])
  | succ fuel ih =>
    rw [scan, scanLog]
    simp only
    rw [List.length_map]
    by_cases h : ls.length ≤ i
    · rw [if_pos h, if_pos h]; exact ha.cast (by simp)
    · rw [if_neg h, if_neg h, List.map_drop]
      have hd : ∀ k, Lines at' (ls.drop k) := fun k => H.sub fun x hx => List.mem_of_mem_drop hx
      have h1 := ha.and (skipLog_fits hsym (hd i))
      rw [List.map_drop] at h1
      by_cases h' : ls.length ≤ i + (skip sym ((ls.map Prod.fst).drop i)).2
      · rw [if_pos h', if_pos h']; exact h1
      · rw [if_neg h', if_neg h', List.map_drop]
        have h2 := bodyLog_fits hsym (hd (i + (skip sym ((ls.map Prod.fst).drop i)).2)) h1
        rw [List.map_drop] at h2
        exact (ih _ h2).cast (by simp only [Bool.or_assoc])

theorem sliceL_fst (ls : List Line) (p : ℕ × ℕ) : (sliceL ls p).map Prod.fst = slice (ls.map Prod.fst) p := by
  rw [sliceL, slice, List.map_drop, List.map_take]

theorem sliceL_infix (ls : List Line) (p : ℕ × ℕ) : sliceL ls p <:+: ls :=
  (List.drop_suffix _ _).isInfix.trans (List.take_prefix _ _).isInfix

theorem sliceL_ne {ls : List Line} {p : ℕ × ℕ} (h1 : p.1 < p.2) (h2 : p.2 ≤ ls.length) : sliceL ls p ≠ [] := by
  intro h
  have := congrArg List.length h
  rw [sliceL, List.length_drop, List.length_take] at this
  simp at this
  omega

theorem exchangeLog_fits {s : List Line} (hs : sec (Str.lit "exchange") = some s) (H : Lines at' s) (hne : s ≠ []) :
    Fits (Msg.Holds L sec names at') (badExchange L names (s.map Prod.fst)) (exchangeLog L names s) := by
  unfold badExchange exchangeLog
  simp only
  rw [headD_fst, tail_fst, List.length_map]
  have hh := headD_mem hne
  have Ht : Lines at' s.tail := H.sub fun x hx => List.mem_of_mem_tail hx
  have h1 : Fits (Msg.Holds L sec names at') _ _ := headerLog_fits energyUnits (H.at' _ hh) (H.clean _ hh)
  have h2 := scanLog_fits (Or.inl rfl) Ht s.tail.length 0 h1
  have S := scan_spec '-' (s.tail.map Prod.fst) s.tail.length 0 (by simp) (Or.inl rfl)
  have h3 : (scan '-' (s.tail.map Prod.fst) s.tail.length 0).2.isEmpty = true → Msg.noBonds.Holds L sec names at' := by
    intro he
    refine ⟨s, hs, fun p hp => ?_⟩
    obtain ⟨j, hj⟩ := List.getElem?_of_mem hp
    have hc := Ht.clean p hp
    rcases S.cover j p.1 (Nat.zero_le _) (by rw [List.getElem?_map, hj]; rfl) with h | h | ⟨q, hq, _⟩
    · exact Or.inl (isLong_iff.1 h)
    · exact Or.inr ((isShort_iff hc).1 h)
    · rw [List.isEmpty_iff.1 he] at hq; simp at hq
  refine (foldl_fits (f := fun p => badBond L names (slice (s.tail.map Prod.fst) p)) (h2.and (Fits.msg rfl h3))
    fun p hp => ?_).cast (by simp only [Bool.or_assoc])
  have B := S.blocks p hp
  rw [← sliceL_fst]
  refine bondLog_fits hs ((sliceL_infix _ _).trans (List.tail_suffix s).isInfix) (fun l hl => Ht.at' l ((sliceL_infix _ _).subset hl))
    (sliceL_ne B.lt (by simpa using B.le))

theorem siteLoop_none {allowed : List Str} (ls : List Line) (hc : ∀ l ∈ ls, Clean l.1)
    (h : (siteLoop L allowed (ls.map Prod.fst)).2 = 0) : ∀ p ∈ ls.dropLast, AnySep '-' p.1 := by
  induction ls with
  | nil => simp
  | cons l ls ih =>
    rw [List.map_cons] at h
    by_cases hl : (isLong '-' l.1 || isShort '-' l.1) = true
    · have e : (siteLoop L allowed (l.1 :: ls.map Prod.fst)).2 = (siteLoop L allowed (ls.map Prod.fst)).2 := by
        conv_lhs => rw [siteLoop.eq_def]
        simp only [hl, if_true]
      rw [e] at h
      intro p hp
      have hp' : p = l ∨ p ∈ ls.dropLast := by
        cases ls with
        | nil => simp at hp
        | cons a t => simpa using hp
      rcases hp' with rfl | hp'
      · rw [Bool.or_eq_true] at hl
        exact hl.imp isLong_iff.1 (isShort_iff (hc _ List.mem_cons_self)).1
      · exact ih (fun x hx => hc x (List.mem_cons_of_mem _ hx)) h p hp'
    · cases ls with
      | nil => simp
      | cons v t =>
        have hl' : (isLong '-' l.1 || isShort '-' l.1) = false := eq_false_of_ne_true hl
        rw [siteLoop.eq_def] at h
        simp only [hl', Bool.false_eq_true, if_false, List.map_cons] at h
        omega

theorem siteLoopLog_fits {s : List Line} (hs : sec (Str.lit "on-site") = some s) (H : Lines at' s) (n : ℕ) {ls : List Line}
    (hn : ls.length ≤ n) (hls : ls <:+ s) {acc : Log} {a : Bool} (ha : Fits (Msg.Holds L sec names at') a acc) :
    Fits (Msg.Holds L sec names at') (a || (siteLoop L names (ls.map Prod.fst)).1) (siteLoopLog L names acc ls) := by
  induction n generalizing ls acc a with
  | zero =>
    have : ls = [] := List.length_eq_zero_iff.1 (by omega)
    subst this
    exact ha.cast (by simp [siteLoop])
  | succ n ih =>
    cases ls with
    | nil => exact ha.cast (by simp [siteLoop])
    | cons l ls =>
      have hl : l ∈ s := hls.subset List.mem_cons_self
      have hls' : ls <:+ s := (List.suffix_cons l ls).trans hls
      have hshort := shortLog_fits (L := L) (sec := sec) (names := names) (sym := '-') (Or.inl rfl) (H.at' l hl) (H.clean l hl)
      rw [List.map_cons]
      by_cases h : (isLong '-' l.1 || isShort '-' l.1) = true
      · have e1 : (siteLoop L names (l.1 :: ls.map Prod.fst)).1 = (isShort '-' l.1 || (siteLoop L names (ls.map Prod.fst)).1) := by
          conv_lhs => rw [siteLoop.eq_def]
          simp only [h, if_true]
        have e2 : siteLoopLog L names acc (l :: ls) = siteLoopLog L names (acc.and (shortLog '-' l)) ls := by
          conv_lhs => rw [siteLoopLog.eq_def]
          simp only [h, if_true]
        rw [e1, e2, ← Bool.or_assoc]
        exact ih (by simpa using hn) hls' (ha.and hshort)
      · have h' : (isLong '-' l.1 || isShort '-' l.1) = false := eq_false_of_ne_true h
        have hshort' : isShort '-' l.1 = false := (Bool.or_eq_false_iff.1 h').2
        obtain ⟨w, ws, hw, hfirst⟩ := Str.split_ne_nil (H.clean l hl)
        have hb := (((ha.and hshort).and (Fits.msg (m := .siteHead l.2 l.1) (c := decide (l.1.split.length ≠ 1)) rfl fun hc =>
          ⟨H.at' l hl, by simpa using hc⟩)).orElse (nameLog_fits (w := l.1.first) (H.at' l hl) (by rw [hw, hfirst]; simp))).and
          (Fits.msg (m := .siteAtom l.2 l.1.first) (c := !Str.mem l.1.first names) rfl fun hc =>
            ⟨not_mem_of hc, l.1, H.at' l hl, by rw [hw, hfirst]; rfl⟩)
        cases ls with
        | nil =>
          have e1 : (siteLoop L names (l.1 :: List.map Prod.fst ([] : List Line))).1 = true := by
            rw [siteLoop.eq_def]
            simp only [h', Bool.false_eq_true, if_false, List.map_nil]
          rw [siteLoopLog.eq_def, e1]
          simp only [h', Bool.false_eq_true, if_false]
          refine (hb.and (Fits.msg (m := .siteEnd l.2) (c := true) rfl fun _ => ⟨s, l.1, hs, ?_, H.at' l hl, ?_⟩)).cast (by simp)
          · obtain ⟨pre, hp⟩ := hls
            rw [← hp]; simp
          · rintro (h1 | h1)
            · exact h (by rw [isLong_iff.2 h1]; rfl)
            · exact h (by rw [(isShort_iff (H.clean l hl)).2 h1]; simp)
        | cons v t =>
          have hv : v ∈ s := hls'.subset List.mem_cons_self
          have e1 : (siteLoop L names (l.1 :: List.map Prod.fst (v :: t))).1 = (decide (l.1.split.length ≠ 1) ||
              badName L l.1.first || !Str.mem l.1.first names || badBlock L [v.1] [[6]] ||
              (siteLoop L names (t.map Prod.fst)).1) := by
            conv_lhs => rw [siteLoop.eq_def]
            simp only [h', Bool.false_eq_true, if_false, List.map_cons]
          rw [siteLoopLog.eq_def, e1]
          simp only [h', Bool.false_eq_true, if_false]
          have hbl := blockLog_fits (L := L) (sec := sec) (names := names) (ls := [v]) (as := [[6]])
            (fun x hx => by rw [List.mem_singleton.1 hx]; exact H.at' v hv) rfl
          refine (ih (ls := t) (by simp only [List.length_cons] at hn; omega) ((List.suffix_cons v t).trans hls') (hb.orElse hbl)).cast ?_
          rw [hshort']
          simp only [Bool.or_false, Bool.or_assoc, List.map_cons, List.map_nil]

theorem onSiteLog_fits {s : List Line} (hs : sec (Str.lit "on-site") = some s) (H : Lines at' s) (hne : s ≠ []) :
    Fits (Msg.Holds L sec names at') (badOnSite L names (s.map Prod.fst)) (onSiteLog L names s) := by
  unfold badOnSite onSiteLog
  simp only
  rw [headD_fst, tail_fst]
  have hh := headD_mem hne
  have h1 : Fits (Msg.Holds L sec names at') _ _ := headerLog_fits energyUnits (H.at' _ hh) (H.clean _ hh)
  refine (siteLoopLog_fits hs H s.tail.length le_rfl (List.tail_suffix s) h1).and (Fits.msg rfl fun hc => ⟨s, hs, ?_⟩)
  exact siteLoop_none _ (fun l hl => H.clean l (List.mem_of_mem_tail hl)) (by simpa using hc)

theorem coneLog_fits {s : List Line} (hs : sec (Str.lit "cone-axis") = some s) (H : Lines at' s) (hne : s ≠ []) :
    Fits (Msg.Holds L sec names at') (badCone L (s.map Prod.fst)) (coneLog L s) := by
  unfold badCone coneLog
  simp only
  rw [List.length_map, headD_fst, getD_fst]
  have hh := headD_mem hne
  by_cases h : s.length ≠ 2
  · rw [if_pos h, if_pos h]
    exact Fits.msg rfl fun _ => ⟨by simpa using h, s, _, hs, head?_headD hne, H.at' _ hh, rfl⟩
  · rw [if_neg h, if_neg h]
    have hm := (getD_mem (s := s) (i := 1) (by omega)).1
    exact (headerLog_fits [['a'], ['r']] (H.at' _ hh) (H.clean _ hh)).orElse (blockLog_fits (ls := [s.getD 1 ([], 0)])
      (as := [[3, 2]]) (fun x hx => by rw [List.mem_singleton.1 hx]; exact H.at' _ hm) rfl)

theorem spiralLog_fits {s : List Line} (hs : sec (Str.lit "spiral-vector") = some s) (H : Lines at' s) (hne : s ≠ []) :
    Fits (Msg.Holds L sec names at') (badSpiral L (s.map Prod.fst)) (spiralLog L s) := by
  unfold badSpiral spiralLog
  simp only
  rw [List.length_map, headD_fst, getD_fst]
  have hh := headD_mem hne
  by_cases h : s.length ≠ 2
  · rw [if_pos h, if_pos h]
    exact Fits.msg rfl fun _ => ⟨by simpa using h, s, _, hs, head?_headD hne, H.at' _ hh, rfl⟩
  · rw [if_neg h, if_neg h]
    have hm := (getD_mem (s := s) (i := 1) (by omega)).1
    exact (headerLog_fits [['a'], ['r']] (H.at' _ hh) (H.clean _ hh)).orElse (blockLog_fits (ls := [s.getD 1 ([], 0)])
      (as := [[3]]) (fun x hx => by rw [List.mem_singleton.1 hx]; exact H.at' _ hm) rfl)

end

end Magnopy.Txt
