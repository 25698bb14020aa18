import Verif.Spec.TxtLog
import Verif.Lemmas.TxtLoad

/-!
# Lemmas: the messages about a model file
-/

set_option autoImplicit false
set_option linter.unusedSectionVars false

namespace Magnopy.Txt

open Log

/-- A log of code that finds errors exactly if `b`: errors are announced exactly if there are any, and every message
satisfies `P`. -/
structure Log.Fits (P : Msg → Prop) (b : Bool) (g : Log) : Prop where
  flag : g.err = b
  told : g.err = g.out.any Msg.isError
  holds : ∀ m ∈ g.out, P m

namespace Log.Fits

variable {P : Msg → Prop} {a b c : Bool} {g h : Log} {m : Msg}

theorem nil : Fits P false Log.nil := ⟨rfl, rfl, by simp [Log.nil]⟩

theorem msg (he : m.isError = true) (hm : c = true → P m) : Fits P c (Log.msg c m) := by
  cases c with
  | false => exact ⟨rfl, rfl, by simp [Log.msg]⟩
  | true => exact ⟨rfl, by simp [Log.msg, he], by simpa [Log.msg] using hm rfl⟩

theorem warn (he : m.isError = false) (hm : c = true → P m) : Fits P false (Log.warn c m) := by
  cases c with
  | false => exact ⟨rfl, rfl, by simp [Log.warn]⟩
  | true => exact ⟨rfl, by simp [Log.warn, he], by simpa [Log.warn] using hm rfl⟩

theorem and (h1 : Fits P a g) (h2 : Fits P b h) : Fits P (a || b) (g.and h) := by
  refine ⟨by simp [Log.and, h1.flag, h2.flag], by simp only [Log.and, List.any_append, h1.told, h2.told], fun m hm => ?_⟩
  rcases List.mem_append.1 hm with hm | hm
  · exact h1.holds m hm
  · exact h2.holds m hm

theorem orElse (h1 : Fits P a g) (h2 : Fits P b h) : Fits P (a || b) (g.orElse h) := by
  unfold Log.orElse
  cases hg : g.err with
  | true =>
    have := h1.flag
    rw [hg] at this
    subst this
    rw [if_pos rfl]
    exact ⟨by simpa using h1.flag, h1.told, h1.holds⟩
  | false =>
    have := h1.flag
    rw [hg] at this
    subst this
    rw [if_neg (by simp)]
    refine ⟨by simp [h2.flag], ?_, fun m hm => ?_⟩
    · have := h1.told
      simp only [List.any_append, ← this, hg, Bool.false_or, h2.told]
    · rcases List.mem_append.1 hm with hm | hm
      · exact h1.holds m hm
      · exact h2.holds m hm

theorem cast (h1 : Fits P a g) (e : a = b) : Fits P b g := e ▸ h1

theorem all {ι : Type*} {l : List ι} {f : ι → Log} {p : ι → Bool} (h1 : ∀ i ∈ l, Fits P (p i) (f i)) :
    Fits P (l.any p) (Log.all (l.map f)) := by
  induction l with
  | nil => exact nil
  | cons i l ih =>
    rw [List.map_cons, Log.all, List.any_cons]
    exact (h1 i List.mem_cons_self).and (ih fun j hj => h1 j (List.mem_cons_of_mem _ hj))

theorem mono {Q : Msg → Prop} (h1 : Fits P a g) (hq : ∀ m, P m → Q m) : Fits Q a g :=
  ⟨h1.flag, h1.told, fun m hm => hq m (h1.holds m hm)⟩

end Log.Fits

theorem lowWords_eq (l : Str) : lowWords l = l.lower.split := (Str.split_lower l).symm

theorem low_lower {l w : Str} (h : w ∈ lowWords l) : w.lower = w := by
  obtain ⟨v, _, rfl⟩ := List.mem_map.1 h
  exact Str.lower_lower v

section
variable {K : Type} [Field K] [LinearOrder K] {L : Lib K} {sec : Str → Option (List Line)} {names : List Str}
  {at' : ℕ → Str → Prop}

theorem nameLog_fits {w l : Str} {n : ℕ} (hl : at' n l) (hw : w ∈ l.split) :
    Fits (Msg.Holds L sec names at') (badName L w) (nameLog L w n) := by
  refine Fits.msg rfl fun h => ⟨l, hl, hw, ?_⟩
  rw [badName, Bool.or_eq_true, Bool.or_eq_true] at h
  rcases h with (h | h) | h
  · rw [Bool.not_eq_true', Bool.and_eq_false_iff] at h
    rcases h with h | h
    · exact Or.inl fun c t e => by subst e; simpa using h
    · exact Or.inr (Or.inl (by
        rw [decide_eq_false_iff_not, List.count_eq_zero, not_not] at h
        exact h))
  · exact Or.inr (Or.inr (Or.inl (List.isPrefixOf_iff_prefix.1 h)))
  · exact Or.inr (Or.inr (Or.inr (List.isSuffixOf_iff_suffix.1 h)))

theorem headerLog_fits {l : Line} (us : List Str) (hl : at' l.2 l.1) (hc : Clean l.1) :
    Fits (Msg.Holds L sec names at') (badHeader l.1 us) (headerLog l us) := by
  unfold headerLog badHeader
  have hw := lowWords_eq l.1
  obtain ⟨w, ws, h1, _⟩ := Str.split_ne_nil hc
  have hne : l.1.lower.split ≠ [] := by rw [← hw, lowWords, h1]; simp
  match hs : l.1.lower.split with
  | [] => exact absurd hs hne
  | [_] => exact Fits.nil
  | [k, u] =>
    simp only
    by_cases he : us.isEmpty = true
    · rw [if_pos he, he]
      exact (Fits.msg (c := true) rfl fun _ => ⟨l.1, hl, by rw [hw, hs], rfl⟩).cast (by simp)
    · rw [if_neg he, eq_false_of_ne_true he, Bool.false_or]
      refine Fits.msg rfl fun h => ⟨l.1, k, hl, by rw [hw, hs], fun e he hp => ?_⟩
      rw [Bool.not_eq_true', List.any_eq_false] at h
      have hu : u.lower = u := low_lower (l := l.1) (by rw [hw, hs]; simp)
      exact h e he (by rw [hu]; exact List.isPrefixOf_iff_prefix.2 hp)
  | a :: b :: c :: t => exact Fits.msg rfl fun _ => ⟨l.1, hl, by rw [hw, hs], by simp⟩

theorem any_zipIdx {α : Type*} (p : α → Bool) (l : List α) (n : ℕ) : (l.zipIdx n).any (fun x => p x.1) = l.any p := by
  induction l generalizing n with
  | nil => rfl
  | cons a l ih => rw [List.zipIdx_cons, List.any_cons, List.any_cons, ih]

/-- `d` is 1 if the first word of the line was removed. -/
theorem numbersLog_fits {l : Str} {n : ℕ} (hl : at' n l) (kw : Option Str) (amounts : List ℕ)
    (hk : kw.isSome = true → ∃ c ∈ ['i', 'd', 's', 'm'], Initial l c) :
    Fits (Msg.Holds L sec names at') (badNumbers L (l.lower.split.drop (if kw.isSome then 1 else 0)) amounts)
      (numbersLog L n kw (l.lower.split.drop (if kw.isSome then 1 else 0)) amounts) := by
  set ws := l.lower.split.drop (if kw.isSome then 1 else 0) with hws
  have hlen : l.split.length = ws.length + if kw.isSome then 1 else 0 := by
    have h1 : l.lower.split.length = l.split.length := by rw [← lowWords_eq, lowWords, List.length_map]
    rw [hws, List.length_drop, h1]
    split_ifs with h
    · obtain ⟨c, _, t, us, e⟩ := hk h
      have : l.split.length = us.length + 1 := by rw [← h1, ← lowWords_eq, e]; rfl
      omega
    · rfl
  unfold numbersLog badNumbers
  refine Fits.and (Fits.msg rfl fun h => ⟨by simpa using h, l, hl, hlen⟩) ?_
  rw [← any_zipIdx (fun w => !isFloat L w) ws 0]
  refine Fits.all fun p hp => Fits.msg rfl fun h => ?_
  have hf : L.float p.1 = none := by simpa [isFloat] using h
  have hi : ws[p.2]? = some p.1 := by simpa using List.mk_mem_zipIdx_iff_getElem?.1 hp
  refine ⟨hf, l, p.2, hl, rfl, ?_⟩
  rw [hws, List.getElem?_drop, ← lowWords_eq] at hi
  split_ifs at hi with hs
  · rw [Nat.add_comm] at hi
    exact Or.inr ⟨hi, hk hs⟩
  · rw [Nat.zero_add] at hi
    exact Or.inl hi

theorem rowsLog_fits {ls : List Line} (hl : ∀ l ∈ ls, at' l.2 l.1) (as : List (List ℕ)) :
    Fits (Msg.Holds L sec names at') (badRows L (ls.map Prod.fst) as) (rowsLog L ls as) := by
  induction ls generalizing as with
  | nil => cases as <;> exact Fits.nil
  | cons l ls ih =>
    cases as with
    | nil => exact Fits.nil
    | cons a as =>
      rw [List.map_cons, badRows, rowsLog]
      exact (numbersLog_fits (hl l List.mem_cons_self) none a (by simp)).and
        (ih (fun x hx => hl x (List.mem_cons_of_mem _ hx)) as)

theorem blockLog_fits {ls : List Line} (hl : ∀ l ∈ ls, at' l.2 l.1) {as : List (List ℕ)} (hn : ls.length = as.length) :
    Fits (Msg.Holds L sec names at') (badBlock L (ls.map Prod.fst) as) (blockLog L ls as) := by
  unfold blockLog badBlock
  rw [List.length_map]
  exact (Fits.msg rfl fun h => absurd hn (by simpa using h)).and (rowsLog_fits hl as)

theorem keyBlockLog_fits {l : Line} {ls : List Line} (hl : ∀ p ∈ l :: ls, at' p.2 p.1) {a : List ℕ} {as : List (List ℕ)}
    {kw : Str} {c : Char} (hc : c ∈ ['i', 'd', 's', 'm']) (hi : Initial l.1 c) (hk : kw.lower.head? = some c)
    (hn : (l :: ls).length ≠ (a :: as).length → c = 'm' ∧ (a :: as).length = 4 ∧ (l :: ls).length < 4) :
    Fits (Msg.Holds L sec names at') (badKeyBlock L ((l :: ls).map Prod.fst) (a :: as) kw)
      (keyBlockLog L (l :: ls) (a :: as) kw) := by
  unfold keyBlockLog badKeyBlock
  rw [List.length_map, List.map_cons]
  have hl' := hl l List.mem_cons_self
  refine (Fits.msg rfl fun h => ?_).and ?_
  · obtain ⟨rfl, h2, h3⟩ := hn (by simpa using h)
    exact ⟨l.1, hl', hi, h2, h3⟩
  · refine Fits.and (Fits.and (Fits.msg rfl fun h => ?_) ?_)
      (rowsLog_fits (fun p hp => hl p (List.mem_cons_of_mem _ hp)) as)
    · rw [decide_eq_true_eq] at h
      obtain ⟨t, ws, e⟩ := hi
      exact (h (by rw [hk, ← lowWords_eq, e]; rfl)).elim
    · have := numbersLog_fits (L := L) (sec := sec) (names := names) hl' (some kw) a fun _ => ⟨c, hc, hi⟩
      simpa only [Option.isSome_some, if_true, List.drop_one] using this


theorem headD_fst (s : List Line) : (s.map Prod.fst).headD [] = (s.headD ([], 0)).1 := by cases s <;> rfl

theorem getD_fst (s : List Line) (i : ℕ) : (s.map Prod.fst).getD i [] = (s.getD i ([], 0)).1 := by
  rw [List.getD_eq_getElem?_getD, List.getD_eq_getElem?_getD, List.getElem?_map]
  cases s[i]? <;> rfl

theorem tail_fst (s : List Line) : (s.map Prod.fst).tail = s.tail.map Prod.fst := by cases s <;> rfl

theorem headD_mem {s : List Line} (h : s ≠ []) : s.headD ([], 0) ∈ s := by
  cases s with
  | nil => exact absurd rfl h
  | cons a s => simp

theorem head?_headD {s : List Line} (h : s ≠ []) : s.head? = some ((s.headD ([], 0)).1, (s.headD ([], 0)).2) := by
  cases s with
  | nil => exact absurd rfl h
  | cons a s => rfl

theorem getD_mem {s : List Line} {i : ℕ} (h : i < s.length) : s.getD i ([], 0) ∈ s ∧ s[i]? = some (s.getD i ([], 0)) := by
  rw [List.getD_eq_getElem?_getD, List.getElem?_eq_getElem h]
  exact ⟨List.getElem_mem h, rfl⟩

/-- The lines of a section. -/
structure Lines (at' : ℕ → Str → Prop) (s : List Line) : Prop where
  at' : ∀ l ∈ s, at' l.2 l.1
  clean : ∀ l ∈ s, Clean l.1

theorem Lines.sub {s t : List Line} (h : Lines at' s) (ht : ∀ l ∈ t, l ∈ s) : Lines at' t :=
  ⟨fun l hl => h.at' l (ht l hl), fun l hl => h.clean l (ht l hl)⟩

theorem cellLog_fits {s : List Line} (hs : sec (Str.lit "cell") = some s) (H : Lines at' s) (hne : s ≠ []) :
    Fits (Msg.Holds L sec names at') (badCell L (s.map Prod.fst)) (cellLog L s) := by
  unfold cellLog badCell
  rw [List.length_map, headD_fst, getD_fst]
  have hh := headD_mem hne
  by_cases h0 : (!([4, 5].contains s.length)) = true
  · rw [if_pos h0, if_pos h0]
    exact Fits.msg rfl fun _ => ⟨by simpa using h0, s, _, hs, head?_headD hne, H.at' _ hh, rfl⟩
  · rw [if_neg h0, if_neg h0]
    have hlen : s.length = 4 ∨ s.length = 5 := by
      by_contra hc
      exact h0 (by simpa using hc)
    have h1 : Fits (Msg.Holds L sec names at') _ _ := headerLog_fits [Str.lit "a", Str.lit "b"] (H.at' _ hh) (H.clean _ hh)
    have hd : ∀ k, ∀ l ∈ s.drop k, at' l.2 l.1 := fun k l hl => H.at' l (List.mem_of_mem_drop hl)
    by_cases h5 : s.length = 5
    · simp only [if_pos h5]
      obtain ⟨m1, m2⟩ := getD_mem (s := s) (i := 1) (by omega)
      set l := s.getD 1 ([], 0) with hl
      have h2 : Fits (Msg.Holds L sec names at') _ _ := blockLog_fits (L := L) (ls := [l]) (as := [[1, 3]])
        (fun x hx => by rw [List.mem_singleton.1 hx]; exact H.at' _ m1) rfl
      have h4 : Fits (Msg.Holds L sec names at') _ _ := blockLog_fits (L := L) (ls := s.drop 2) (as := [[3], [3], [3]])
        (hd 2) (by simp [h5])
      have hb : (blockLog L [l] [[1, 3]]).err = badBlock L [l.1] [[1, 3]] := h2.flag
      rw [hb, ← List.map_drop]
      have h3 : Fits (Msg.Holds L sec names at') (!badBlock L [l.1] [[1, 3]] && (match l.1.split with
            | [x] => decide (L.float x = some 0)
            | [x, y, z] => [x, y, z].any fun w => (L.float w).any fun v => decide (v ≤ 0)
            | _ => false)) (match l.1.split with
        | [x] => Log.msg (!badBlock L [l.1] [[1, 3]] && decide (L.float x = some 0)) .scaleZero
        | [x, y, z] =>
          Log.msg (!badBlock L [l.1] [[1, 3]] && [x, y, z].any fun w => (L.float w).any fun v => decide (v ≤ 0)) (.scaleSign [x, y, z])
        | _ => Log.nil) := by
        match hw : l.1.split with
        | [] => exact Fits.nil.cast (by simp)
        | [x] =>
          refine Fits.msg rfl fun h => ⟨s, l, x, hs, m2, hw, ?_⟩
          rw [Bool.and_eq_true] at h
          simpa using h.2
        | [x, y] => exact Fits.nil.cast (by simp)
        | [x, y, z] =>
          refine Fits.msg rfl fun h => ⟨s, l, hs, m2, hw, rfl, ?_⟩
          rw [Bool.and_eq_true, List.any_eq_true] at h
          obtain ⟨_, w, h1, h2⟩ := h
          cases hf : L.float w with
          | none => rw [hf] at h2; simp at h2
          | some v => rw [hf] at h2; exact ⟨w, h1, v, hf, by simpa using h2⟩
        | a :: b :: c :: d :: t => exact Fits.nil.cast (by simp)
      exact (((h1.and h2).and h3).orElse h4).cast (by
        simp only [Bool.or_assoc, List.map_cons, List.map_nil]
        rfl)
    · simp only [if_neg h5]
      rw [← List.map_drop]
      exact h1.orElse (blockLog_fits (hd 1) (by simp; omega))

theorem filter_erase_neg {α : Type*} [BEq α] [LawfulBEq α] {p : α → Bool} {a : α} (h : p a = false) (l : List α) :
    (l.erase a).filter p = l.filter p := by
  induction l with
  | nil => rfl
  | cons b l ih =>
    rcases eq_or_ne b a with hb | hb
    · subst hb
      rw [List.erase_cons_head, List.filter_cons_of_neg (by simp [h])]
    · rw [List.erase_cons_tail (by simpa using hb)]
      by_cases hp : p b = true
      · rw [List.filter_cons_of_pos hp, List.filter_cons_of_pos hp, ih]
      · rw [List.filter_cons_of_neg hp, List.filter_cons_of_neg hp, ih]

theorem starts_head (w : Str) (c : Char) : w.startsWith [c] = (w.head? == some c) := by
  cases w with
  | nil => rfl
  | cons d t =>
    by_cases h : c = d
    · subst h; simp [Str.startsWith, List.isPrefixOf]
    · have : d ≠ c := fun e => h e.symm
      simp [Str.startsWith, List.isPrefixOf, h, this]

theorem sortStr_perm (l : List Str) : (sortStr l).Perm l := List.perm_insertionSort _ l

/-- The titles that remain after "name", "q" and "g". -/
def remaining (ws : List Str) : List Str := ((ws.erase (Str.lit "name")).erase ['q']).erase ['g']

theorem filter_remaining {p : Str → Bool} (h1 : p (Str.lit "name") = false) (h2 : p ['q'] = false) (h3 : p ['g'] = false)
    (ws : List Str) : (remaining ws).filter p = ws.filter p := by
  rw [remaining, filter_erase_neg h3, filter_erase_neg h2, filter_erase_neg h1]

theorem remaining_sublist (ws : List Str) : (remaining ws).Sublist ws :=
  (List.erase_sublist.trans List.erase_sublist).trans List.erase_sublist

/-- The titles of positions in alphabetical order. -/
def positionWords (ws : List Str) : List Str := sortStr ((remaining ws).filter fun w => w.startsWith ['r'] || inXyz w)

theorem vector_pred {c : Char} (hc : c ∈ ['s', 'l', 'j']) (w : Str) :
    (!(w.startsWith ['r'] || inXyz w) && w.startsWith [c]) = (w.head? == some c) := by
  rw [starts_head w c]
  by_cases h : (w.head? == some c) = true
  · rw [h, Bool.and_true, starts_head]
    cases w with
    | nil => simp at h
    | cons d t =>
      have hd : d = c := by simpa using h
      subst hd
      have : inXyz (d :: t) = false := by
        rw [inXyz, decide_eq_false_iff_not]
        intro hx
        have hm : d ∈ Str.lit "xyz" := hx.subset List.mem_cons_self
        have : Str.lit "xyz" = ['x', 'y', 'z'] := by decide
        rw [this] at hm
        simp at hc hm
        rcases hc with rfl | rfl | rfl <;> simp at hm
      rw [this]
      simp at hc
      rcases hc with rfl | rfl | rfl <;> rfl
  · rw [eq_false_of_ne_true h, Bool.and_false]

theorem vectorLog_fits {l : Str} {n : ℕ} (hl : at' n l) {c : Char} (hc : c ∈ ['s', 'l', 'j']) :
    let ks := sortStr ((remaining l.lower.split).filter fun w => !(w.startsWith ['r'] || inXyz w) && w.startsWith [c])
    Fits (Msg.Holds L sec names at') (badVector ks c) (vectorLog ks c n) := by
  intro ks
  refine Fits.msg rfl fun h => ⟨l, hl, c, hc, ?_, ?_⟩
  · refine (sortStr_perm _).trans ?_
    rw [lowWords_eq]
    have : (fun w : Str => !(w.startsWith ['r'] || inXyz w) && w.startsWith [c]) = fun w => w.head? == some c :=
      funext (vector_pred hc)
    rw [this, filter_remaining]
    · simp at hc; rcases hc with rfl | rfl | rfl <;> decide
    · simp at hc; rcases hc with rfl | rfl | rfl <;> decide
    · simp at hc; rcases hc with rfl | rfl | rfl <;> decide
  · rw [badVector] at h
    simp only [Bool.not_eq_true', Bool.or_eq_false_iff, decide_eq_false_iff_not] at h
    obtain ⟨⟨⟨⟨⟨h1, h2⟩, h3⟩, h4⟩, h5⟩, h6⟩ := h
    simp only [vectorForms, List.mem_cons, List.not_mem_nil, or_false, not_or]
    exact ⟨h1, h2, h3, h4, h5, h6⟩

theorem atomsHeaderLog_fits {l : Line} (hl : at' l.2 l.1) :
    (atomsHeaderLog l).1 = (atomsHeader l.1).1 ∧ (atomsHeaderLog l).2.1 = (atomsHeader l.1).2.1 ∧
      Fits (Msg.Holds L sec names at') (atomsHeader l.1).2.2 (atomsHeaderLog l).2.2 := by
  refine ⟨rfl, rfl, ?_⟩
  set ws := l.1.lower.split with hws
  have f1 : decide (ws.dedup.length ≠ ws.length) = true → (Msg.repeated l.2 ws).Holds L sec names at' := by
    refine fun h => ⟨l.1, hl, lowWords_eq _, fun hn => ?_⟩
    rw [decide_eq_true_eq] at h
    exact h (by rw [List.Nodup.dedup hn])
  have f2 : (ws.idxOf? (Str.lit "name")).isNone = true → (Msg.noName l.2).Holds L sec names at' := by
    refine fun h => ⟨l.1, hl, fun hm => ?_⟩
    rw [lowWords_eq] at hm
    rw [Option.isNone_iff_eq_none, List.idxOf?_eq_none_iff] at h
    exact h hm
  have f3 : (!(decide (positionWords ws = [Str.lit "r1", Str.lit "r2", Str.lit "r3"]) ||
      decide (positionWords ws = [['x'], ['y'], ['z']]) ||
      decide (positionWords ws = [Str.lit "r1", Str.lit "r2", Str.lit "r3"] ++ [['x'], ['y'], ['z']]))) = true →
      (Msg.position l.2 (positionWords ws)).Holds L sec names at' := by
    intro h
    simp only [Bool.not_eq_true', Bool.or_eq_false_iff, decide_eq_false_iff_not] at h
    obtain ⟨⟨h1, h2⟩, h3⟩ := h
    refine ⟨l.1, hl, (sortStr_perm _).trans ?_, ?_⟩
    · rw [filter_remaining (by decide) (by decide) (by decide), lowWords_eq]
      refine List.Perm.of_eq (List.filter_congr fun w _ => ?_)
      rw [starts_head]; rfl
    · simp only [positionForms, List.mem_cons, List.not_mem_nil, or_false, not_or]
      exact ⟨h1, h2, h3⟩
  have f4 : Fits (Msg.Holds L sec names at') false (Log.warn (!(List.isEmpty ((remaining ws).filter fun w =>
        !(w.startsWith ['r'] || inXyz w) && !w.startsWith ['s'] && !w.startsWith ['l'] && !w.startsWith ['j'])))
      (.warnKeywords l.2 ((remaining ws).filter fun w =>
        !(w.startsWith ['r'] || inXyz w) && !w.startsWith ['s'] && !w.startsWith ['l'] && !w.startsWith ['j']))) := by
    refine Fits.warn rfl fun h => ⟨fun he => ?_, l.1, hl, ?_⟩
    · rw [he] at h; simp at h
    · rw [lowWords_eq]
      exact List.filter_sublist.trans (remaining_sublist _)
  have key := ((((((Fits.msg rfl f1).and (Fits.msg rfl f2)).and (Fits.msg rfl f3)).orElse (vectorLog_fits (L := L) (sec := sec) (names := names) hl (c := 's') (by simp))).orElse
    (vectorLog_fits hl (c := 'l') (by simp))).orElse (vectorLog_fits hl (c := 'j') (by simp))).and f4
  exact key.cast (by rw [Bool.or_false]; rfl)

end

end Magnopy.Txt
