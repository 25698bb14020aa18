import Verif.Lemmas.VampireText
import Verif.Spec.VampireFiles

/-!
# Lemmas: the keys of the .mat file and the input file
-/

set_option autoImplicit false
set_option linter.unusedSectionVars false

namespace Magnopy.Vampire

open Txt
open History (NumFmt Reads joinLines linesOf_break linesOf_ne)

/-! ### Stripping -/

theorem lstrip_of {w : Str} (h : ∀ c ∈ w, Str.isSpace c = false) : Str.lstrip w = w := by
  cases w with
  | nil => rfl
  | cons c w => rw [Str.lstrip, List.dropWhile_cons_of_neg (by rw [h c (by simp)]; simp)]

theorem strip_of {w : Str} (h : ∀ c ∈ w, Str.isSpace c = false) : Str.strip w = w := by
  rw [Str.strip, lstrip_of h, lstrip_of (by simpa using h), List.reverse_reverse]

theorem strip_space_right {w : Str} (h : ∀ c ∈ w, Str.isSpace c = false) : Str.strip (w ++ [' ']) = w := by
  cases w with
  | nil => decide
  | cons c w =>
    have e : Str.lstrip (c :: w ++ [' ']) = c :: w ++ [' '] := by
      rw [Str.lstrip, List.cons_append, List.dropWhile_cons_of_neg (by rw [h c (by simp)]; simp)]
    rw [Str.strip, e, List.reverse_append]
    show (Str.lstrip (' ' :: (c :: w).reverse)).reverse = c :: w
    rw [Str.lstrip, List.dropWhile_cons_of_pos (by decide)]
    show (Str.lstrip (c :: w).reverse).reverse = c :: w
    rw [lstrip_of (fun c' hc' => h c' (List.mem_reverse.1 hc')), List.reverse_reverse]

theorem strip_space_left (w : Str) : Str.strip (' ' :: w) = Str.strip w := by
  rw [Str.strip, Str.strip]
  congr 3

theorem uncomment_of {w : Str} (h : '#' ∉ w) (h' : '!' ∉ w) : uncomment w = w := by
  rw [uncomment, List.takeWhile_eq_self_iff]
  intro c hc
  simp only [ne_eq, decide_eq_true_eq]
  exact ⟨fun e => h (e ▸ hc), fun e => h' (e ▸ hc)⟩

theorem uncomment_append {w : Str} (h : '#' ∉ w) (h' : '!' ∉ w) (v : Str) : uncomment (w ++ v) = w ++ uncomment v := by
  rw [uncomment, List.takeWhile_append_of_pos]
  · rfl
  · intro c hc
    simp only [ne_eq, decide_eq_true_eq]
    exact ⟨fun e => h (e ▸ hc), fun e => h' (e ▸ hc)⟩

/-! ### Lines -/

theorem linesOf_flat {ls : List Str} (h : ls ≠ []) : Logo.linesOf (joinLines ls) = ls.flatMap Logo.linesOf := by
  induction ls with
  | nil => exact absurd rfl h
  | cons a ls ih =>
    cases ls with
    | nil => simp [joinLines]
    | cons b ls =>
      rw [joinLines.eq_def]
      simp only
      rw [linesOf_break, ih (by simp)]
      rfl

/-- The pieces of a text give these keys and values. -/
def Yields (ls : List Str) (kv : List (Str × Str)) : Prop :=
  (((ls.flatMap Logo.linesOf).map uncomment).filter fun l => l.any fun c => !Str.isSpace c).mapM keyValue = some kv

theorem Yields.read {ls : List Str} {kv : List (Str × Str)} (h : Yields ls kv) (h0 : ls ≠ []) :
    readSettings (joinLines ls) = some kv := by
  rw [readSettings, linesOf_flat h0]
  exact h

theorem Yields.nil : Yields [] [] := rfl

theorem Yields.append {ls ls' : List Str} {kv kv' : List (Str × Str)} (h : Yields ls kv) (h' : Yields ls' kv') :
    Yields (ls ++ ls') (kv ++ kv') := by
  rw [Yields] at *
  rw [List.flatMap_append, List.map_append, List.filter_append, List.mapM_append, h, h']
  rfl

theorem Yields.cons {l : Str} {ls' : List Str} {kv kv' : List (Str × Str)} (h : Yields [l] kv) (h' : Yields ls' kv') :
    Yields (l :: ls') (kv ++ kv') := h.append h'

theorem Yields.skip {l : Str} {ls' : List Str} {kv' : List (Str × Str)} (h : Yields [l] []) (h' : Yields ls' kv') :
    Yields (l :: ls') kv' := h.append h'

theorem Yields.entry {l : Str} {ls' : List Str} {p : Str × Str} {kv' : List (Str × Str)} (h : Yields [l] [p])
    (h' : Yields ls' kv') : Yields (l :: ls') (p :: kv') := h.append h'

theorem Yields.flatMap {α : Type} {f : α → List Str} {g : α → List (Str × Str)} (l : List α) (h : ∀ a ∈ l, Yields (f a) (g a)) :
    Yields (l.flatMap f) (l.flatMap g) := by
  induction l with
  | nil => exact .nil
  | cons a l ih =>
    rw [List.flatMap_cons, List.flatMap_cons]
    exact (h a (by simp)).append (ih fun b hb => h b (by simp [hb]))

/-- Comments give nothing. -/
theorem yields_comment {x : Str} (h : ∀ l ∈ Logo.linesOf x, l = [] ∨ l.head? = some '#') : Yields [x] [] := by
  have : ((Logo.linesOf x).map uncomment).filter (fun l => l.any fun c => !Str.isSpace c) = [] := by
    rw [List.filter_eq_nil_iff]
    intro l hl
    obtain ⟨l', hl', rfl⟩ := List.mem_map.1 hl
    rcases h l' hl' with rfl | h
    · decide
    · cases l' with
      | nil => simp at h
      | cons c t =>
        simp only [List.head?_cons, Option.some.injEq] at h
        subst h
        rw [uncomment, List.takeWhile_cons_of_neg (by simp)]
        decide
  rw [Yields, List.flatMap_cons, List.flatMap_nil, List.append_nil, this]
  rfl

theorem yields_hash {x : Str} (h : '\n' ∉ x) (h' : x.head? = some '#') : Yields [x] [] :=
  yields_comment (by rw [Logo.linesOf_plain x h]; simp [h'])

/-- A line `key = value`. -/
theorem yields_entry {pre post key val : Str} (hn : '\n' ∉ pre) (h1 : '#' ∉ pre) (h2 : '!' ∉ pre) (h3 : '=' ∉ pre)
    (hk : Str.strip pre = key) (hn' : '\n' ∉ post) (hv : Str.strip (uncomment post) = val) :
    Yields [pre ++ '=' :: post] [(key, val)] := by
  have e : uncomment (pre ++ '=' :: post) = pre ++ '=' :: uncomment post := by
    rw [uncomment_append h1 h2, uncomment, List.takeWhile_cons_of_pos (by decide)]
    rfl
  have hpos : ∀ c ∈ pre, decide (c ≠ '=') = true := fun c hc => by
    rw [decide_eq_true_eq]; rintro rfl; exact h3 hc
  have hkv : keyValue (pre ++ '=' :: uncomment post) = some (key, val) := by
    rw [keyValue, List.dropWhile_append_of_pos hpos, List.dropWhile_cons_of_neg (by simp)]
    simp only
    rw [List.takeWhile_append_of_pos hpos, List.takeWhile_cons_of_neg (by simp), List.append_nil, hk, hv]
  rw [Yields, List.flatMap_cons, List.flatMap_nil, List.append_nil, Logo.linesOf_plain _ (by
    rw [List.mem_append, List.mem_cons]
    rintro (h | h | h)
    · exact hn h
    · exact absurd h (by decide)
    · exact hn' h), List.map_cons, List.map_nil, e, List.filter_cons_of_pos (by
      rw [List.any_append, List.any_cons]
      simp [show Str.isSpace '=' = false by decide])]
  rw [List.filter_nil, List.mapM_cons, hkv]
  rfl

/-- The logo gives nothing. -/
theorem logo_yields {env : Logo.Env} {nologo : Bool} (henv : ∀ x ∈ env.standard true, '\n' ∉ x) :
    ∃ l, logoLines env nologo = .ok l ∧ Yields l [] := by
  cases nologo with
  | true => exact ⟨[], rfl, .nil⟩
  | false =>
    obtain ⟨text, h1, h2, -⟩ := Logo.C77_ignored env none none false true (by simpa using henv)
    refine ⟨[text], by rw [logoLines]; simp only [Bool.false_eq_true, if_false, h1], yields_comment fun l hl => ?_⟩
    obtain ⟨t, rfl⟩ := h2 l hl
    exact .inr rfl

/-! ### The keys -/

theorem intStr_chars {c : Char} (i : ℤ) (h : c ∈ intStr i) : c.isDigit = true ∨ c = '-' := by
  rw [intStr] at h
  split at h
  · rcases List.mem_cons.1 h with rfl | h
    · exact .inr rfl
    · exact .inl (Nat.isDigit_of_mem_toDigits (by norm_num) (by norm_num) h)
  · exact .inl (Nat.isDigit_of_mem_toDigits (by norm_num) (by norm_num) h)

theorem intStr_no {c : Char} (h : c.isDigit = false) (h' : c ≠ '-') (i : ℤ) : c ∉ intStr i := by
  intro hc
  rcases intStr_chars i hc with h1 | h1
  · rw [h] at h1; exact absurd h1 (by decide)
  · exact h' h1

theorem intStr_inj {i j : ℤ} (h : intStr i = intStr j) : i = j := by
  have h1 := readInt_intStr i
  rw [h, readInt_intStr] at h1
  exact (Option.some.inj h1).symm

theorem materialKey_no {c : Char} (h : c.isDigit = false) (h' : c ≠ '-') (m : ℤ) (w : String)
    (h1 : c ∉ Str.lit "material[") (h2 : c ∉ Str.lit "]:") (h3 : c ∉ Str.lit w) : c ∉ materialKey m w := by
  simp only [materialKey, List.mem_append, not_or]
  exact ⟨⟨⟨h1, intStr_no h h' m⟩, h2⟩, h3⟩

theorem materialKey_inj {m m' : ℤ} {w w' : String} (h : materialKey m w = materialKey m' w') : m = m' ∧ w = w' := by
  simp only [materialKey, List.append_assoc] at h
  have h1 := List.append_cancel_left h
  have hb : ∀ i : ℤ, ∀ c ∈ intStr i, decide (c ≠ ']') = true := fun i c hc => by
    rw [decide_eq_true_eq]; rintro rfl
    exact intStr_no (by decide) (by decide) i hc
  have e : ∀ (i : ℤ) (t : Str), (intStr i ++ (Str.lit "]:" ++ t)).takeWhile (fun c => decide (c ≠ ']')) = intStr i := by
    intro i t
    rw [List.takeWhile_append_of_pos (hb i)]
    show intStr i ++ List.takeWhile _ (']' :: (':' :: t)) = _
    rw [List.takeWhile_cons_of_neg (by simp), List.append_nil]
  have h2 : intStr m = intStr m' := by rw [← e m (Str.lit w), h1, e]
  have hm := intStr_inj h2
  subst hm
  have h3 := List.append_cancel_left (List.append_cancel_left h1)
  exact ⟨rfl, String.toList_inj.1 h3⟩

/-! ### The blocks -/

variable {K : Type} [Field K]

instance (materials : Option (List ℤ)) (n : ℕ) : Decidable (FirstAt materials n) := by
  unfold FirstAt; infer_instance

/-- The blocks for the atoms from number `i` on. -/
def blocksOf (materials : Option (List ℤ)) : ℕ → List Atom → List (ℤ × Atom)
  | _, [] => []
  | i, a :: as => (if FirstAt materials i then [(materialAt materials i + 1, a)] else []) ++ blocksOf materials (i + 1) as

theorem blockNumber_eq (materials : Option (List ℤ)) (i : ℕ) (h : ∀ m, materials = some m → i < m.length) :
    blockNumber materials i = .ok (if FirstAt materials i then some (materialAt materials i + 1) else none) := by
  cases materials with
  | none =>
    have : FirstAt none i := fun n' hn' => by simp only [materialAt]; omega
    rw [if_pos this]
    rfl
  | some m =>
    have hi := h m rfl
    rw [blockNumber]
    simp only [List.getElem?_eq_getElem hi]
    have hiff : m[i] ∈ m.take i ↔ ¬ FirstAt (some m) i := by
      simp only [FirstAt, materialAt, List.getElem?_eq_getElem hi, Option.getD_some]
      push Not
      rw [List.mem_take_iff_getElem]
      constructor
      · rintro ⟨n, hn, e⟩
        refine ⟨n, by omega, ?_⟩
        rw [List.getElem?_eq_getElem (by omega)]
        exact e
      · rintro ⟨n, hn, e⟩
        rw [List.getElem?_eq_getElem (by omega)] at e
        exact ⟨n, by omega, e⟩
    by_cases hF : FirstAt (some m) i
    · rw [if_neg (by rw [hiff]; exact not_not.2 hF), if_pos hF, materialAt, List.getElem?_eq_getElem hi]
      rfl
    · rw [if_pos (hiff.2 hF), if_neg hF]

theorem mem_blocksOf (materials : Option (List ℤ)) (i : ℕ) (as : List Atom) (k : ℤ) (a : Atom) :
    (k, a) ∈ blocksOf materials i as ↔ ∃ n : ℕ, as[n]? = some a ∧ FirstAt materials (i + n) ∧ k = materialAt materials (i + n) + 1 := by
  induction as generalizing i with
  | nil => simp [blocksOf]
  | cons b as ih =>
    rw [blocksOf, List.mem_append, ih]
    constructor
    · rintro (h | ⟨n, h1, h2, h3⟩)
      · split at h
        · rename_i hF
          simp only [List.mem_singleton, Prod.mk.injEq] at h
          obtain ⟨rfl, rfl⟩ := h
          exact ⟨0, rfl, hF, rfl⟩
        · simp at h
      · refine ⟨n + 1, by simpa using h1, ?_, ?_⟩
        · rw [show i + (n + 1) = i + 1 + n by omega]; exact h2
        · rw [show i + (n + 1) = i + 1 + n by omega]; exact h3
    · rintro ⟨n, h1, h2, h3⟩
      cases n with
      | zero =>
        left
        simp only [List.getElem?_cons_zero, Option.some.injEq] at h1
        rw [if_pos (by simpa using h2), h1, h3]
        simp
      | succ n =>
        right
        refine ⟨n, by simpa using h1, ?_, ?_⟩
        · rw [show i + 1 + n = i + (n + 1) by omega]; exact h2
        · rw [show i + 1 + n = i + (n + 1) by omega]; exact h3

theorem blocksOf_nodup (materials : Option (List ℤ)) (i : ℕ) (as : List Atom) : ((blocksOf materials i as).map Prod.fst).Nodup := by
  induction as generalizing i with
  | nil => simp [blocksOf]
  | cons b as ih =>
    rw [blocksOf]
    split
    · rw [List.singleton_append, List.map_cons, List.nodup_cons]
      refine ⟨fun h => ?_, ih _⟩
      obtain ⟨⟨k, a⟩, hp, e⟩ := List.mem_map.1 h
      obtain ⟨n, -, h2, rfl⟩ := (mem_blocksOf materials (i + 1) as k a).1 hp
      simp only at e
      exact h2 i (by omega) (by omega)
    · rw [List.nil_append]; exact ih _

variable {F : NumFmt K} {repr : K → Str} {info : AtomInfo K}

theorem matLines_ok (materials : Option (List ℤ)) (s : St K) (sp : Atom → K) (i : ℕ) (as : List Atom)
    (hm : ∀ m, materials = some m → i + as.length ≤ m.length)
    (hs : ∀ p ∈ blocksOf materials i as, s.spin p.2 = some (sp p.2)) :
    matLines F repr info materials s i as =
      .ok ((blocksOf materials i as).flatMap fun p => blockText F repr info p.1 p.2 (sp p.2)) := by
  induction as generalizing i with
  | nil => rfl
  | cons a as ih =>
    have hi := ih (i + 1) (fun m e => by have := hm m e; simp only [List.length_cons] at this; omega)
      (fun p hp => hs p (by rw [blocksOf]; exact List.mem_append_right _ hp))
    rw [matLines, blockNumber_eq materials i (fun m e => by have := hm m e; simp only [List.length_cons] at this; omega), blocksOf]
    by_cases hF : FirstAt materials i
    · have hsp := hs (materialAt materials i + 1, a) (by rw [blocksOf, if_pos hF]; simp)
      simp only [if_pos hF, St.spinOf, hsp, hi, List.singleton_append, List.flatMap_cons]
    · simp only [if_neg hF, hi, List.nil_append]

theorem matLines_err (materials : Option (List ℤ)) (s : St K) (i : ℕ) (as : List Atom)
    (hm : ∀ m, materials = some m → i + as.length ≤ m.length)
    (hs : ∃ p ∈ blocksOf materials i as, s.spin p.2 = none) :
    matLines F repr info materials s i as = .error .valueError := by
  induction as generalizing i with
  | nil => obtain ⟨p, hp, -⟩ := hs; simp [blocksOf] at hp
  | cons a as ih =>
    have hm' : ∀ m, materials = some m → i + 1 + as.length ≤ m.length := fun m e => by
      have := hm m e; simp only [List.length_cons] at this; omega
    rw [matLines, blockNumber_eq materials i (fun m e => by have := hm' m e; omega)]
    obtain ⟨p, hp, h0⟩ := hs
    rw [blocksOf, List.mem_append] at hp
    by_cases hF : FirstAt materials i
    · simp only [if_pos hF, St.spinOf]
      cases hsp : s.spin a with
      | none => rfl
      | some x =>
        rcases hp with hp | hp
        · rw [if_pos hF, List.mem_singleton] at hp
          rw [hp, hsp] at h0
          exact absurd h0 (by simp)
        · simp only [ih (i + 1) hm' ⟨p, hp, h0⟩]
    · rcases hp with hp | hp
      · rw [if_neg hF] at hp; simp at hp
      · simp only [if_neg hF]
        exact ih (i + 1) hm' ⟨p, hp, h0⟩

/-- The keys of a block. -/
def blockKeys (F : NumFmt K) (repr : K → Str) (info : AtomInfo K) (m : ℤ) (a : Atom) (spin : K) : List (Str × Str) :=
  [(materialKey m "material-name", a.name.toList), (materialKey m "material-element", info.type a),
    (materialKey m "atomic-spin-moment", repr spin),
    (materialKey m "initial-spin-direction", directionText F (info.direction a)),
    (materialKey m "damping-constant", Str.lit "0.1"), (materialKey m "uniaxial-anisotropy-constant", Str.lit "0.0")]

theorem blockKeys_fst (m : ℤ) (a : Atom) (x : K) :
    (blockKeys F repr info m a x).map Prod.fst = materialProperties.map (materialKey m) := rfl

variable [LinearOrder K] {float : Str → Option K}

theorem plain_noBreak {w : Str} (h : Plain w) : '\n' ∉ w := fun hc => absurd (h.space _ hc) (by decide)

theorem direction_neat (hR : ReadsMat F repr float) (v : Option (V3 K)) : Neat (directionText F v) := by
  cases v with
  | none =>
    show Neat (Str.lit "random")
    exact ⟨by decide, by decide, by decide, by decide⟩
  | some v =>
    have h := fun c => (hR.reads.fixed 8 (v c)).1
    have hx := fun c => (hR.fixed 8 (v c)).2
    refine ⟨?_, ?_, ?_, strip_of fun c hc => ?_⟩
    · simp only [directionText, List.mem_append, List.mem_cons, not_or]
      exact ⟨⟨plain_noBreak (h 0), by decide, plain_noBreak (h 1)⟩, by decide, plain_noBreak (h 2)⟩
    · simp only [directionText, List.mem_append, List.mem_cons, not_or]
      exact ⟨⟨(h 0).hash, by decide, (h 1).hash⟩, by decide, (h 2).hash⟩
    · simp only [directionText, List.mem_append, List.mem_cons, not_or]
      exact ⟨⟨hx 0, by decide, hx 1⟩, by decide, hx 2⟩
    · simp only [directionText, List.mem_append, List.mem_cons] at hc
      rcases hc with (hc | rfl | hc) | rfl | hc
      · exact (h 0).space c hc
      · decide
      · exact (h 1).space c hc
      · decide
      · exact (h 2).space c hc

theorem direction_read (hR : ReadsMat F repr float) (v : V3 K) :
    readDirection float (directionText F (some v)) = some fun c => fix hR.reads (v c) := by
  have hc : ∀ c, ∀ x ∈ F.fixed 8 (v c), decide (x ≠ ',') = true := fun c x hx => by
    rw [decide_eq_true_eq]; rintro rfl; exact (hR.fixed 8 (v c)).1 hx
  have e : (fun c => fix hR.reads (v c)) = ![fix hR.reads (v 0), fix hR.reads (v 1), fix hR.reads (v 2)] := by
    funext c; fin_cases c <;> rfl
  rw [e, readDirection, directionText]
  simp only [List.append_assoc, List.cons_append]
  rw [List.dropWhile_append_of_pos (hc 0), List.dropWhile_cons_of_neg (by simp)]
  simp only
  rw [List.dropWhile_append_of_pos (hc 1), List.dropWhile_cons_of_neg (by simp)]
  simp only
  rw [List.takeWhile_append_of_pos (hc 0), List.takeWhile_cons_of_neg (by simp), List.append_nil,
    List.takeWhile_append_of_pos (hc 1), List.takeWhile_cons_of_neg (by simp), List.append_nil]
  exact readVec_words hR.reads v

theorem spaceless_key (m : ℤ) {w : String} (h : ∀ c ∈ Str.lit w, Str.isSpace c = false) :
    ∀ c ∈ materialKey m w, Str.isSpace c = false := by
  intro c hc
  simp only [materialKey, List.mem_append] at hc
  rcases hc with ((hc | hc) | hc) | hc
  · revert c; decide
  · exact (intStr_plain m).space c hc
  · revert c; decide
  · exact h c hc

/-- A line `material[m]:what = value`. -/
theorem yields_key (m : ℤ) {w : String} (hs : ∀ c ∈ Str.lit w, Str.isSpace c = false)
    (hc : ∀ c ∈ ['\n', '#', '!', '='], c ∉ Str.lit w) {post val : Str} (hn : '\n' ∉ post)
    (hv : Str.strip (uncomment post) = val) :
    Yields [materialKey m w ++ '=' :: post] [(materialKey m w, val)] := by
  refine yields_entry ?_ ?_ ?_ ?_ (strip_of (spaceless_key m hs)) hn hv
  · exact materialKey_no (by decide) (by decide) m w (by decide) (by decide) (hc _ (by decide))
  · exact materialKey_no (by decide) (by decide) m w (by decide) (by decide) (hc _ (by decide))
  · exact materialKey_no (by decide) (by decide) m w (by decide) (by decide) (hc _ (by decide))
  · exact materialKey_no (by decide) (by decide) m w (by decide) (by decide) (hc _ (by decide))

theorem yields_key_space (m : ℤ) {w : String} (hs : ∀ c ∈ Str.lit w, Str.isSpace c = false)
    (hc : ∀ c ∈ ['\n', '#', '!', '='], c ∉ Str.lit w) {post val : Str} (hn : '\n' ∉ post)
    (hv : Str.strip (uncomment post) = val) :
    Yields [materialKey m w ++ [' '] ++ '=' :: post] [(materialKey m w, val)] := by
  have h : ∀ c ∈ ['\n', '#', '!', '='], c ∉ materialKey m w ++ [' '] := by
    intro c hcc
    rw [List.mem_append, not_or]
    refine ⟨?_, by revert c; decide⟩
    simp only [List.mem_cons, List.not_mem_nil, or_false] at hcc
    rcases hcc with rfl | rfl | rfl | rfl <;>
      exact materialKey_no (by decide) (by decide) m w (by decide) (by decide) (hc _ (by decide))
  exact yields_entry (h _ (by decide)) (h _ (by decide)) (h _ (by decide)) (h _ (by decide))
    (strip_space_right (spaceless_key m hs)) hn hv

theorem neat_value {x : Str} (h : Neat x) : '\n' ∉ ' ' :: x ∧ Str.strip (uncomment (' ' :: x)) = x := by
  obtain ⟨h1, h2, h3, h4⟩ := h
  refine ⟨by rw [List.mem_cons, not_or]; exact ⟨by decide, h1⟩, ?_⟩
  rw [uncomment_of (by rw [List.mem_cons, not_or]; exact ⟨by decide, h2⟩)
    (by rw [List.mem_cons, not_or]; exact ⟨by decide, h3⟩), strip_space_left, h4]

theorem yields_rule : Yields [rule] [] := yields_hash (by decide) (by decide)

theorem yields_block (hR : ReadsMat F repr float) (m : ℤ) (a : Atom) (x : K) (hname : Neat a.name.toList)
    (htype : Neat (info.type a)) : Yields (blockText F repr info m a x) (blockKeys F repr info m a x) := by
  rw [blockText, blockKeys]
  refine .skip yields_rule (.skip ?_ (.skip yields_rule (.entry ?_ (.entry ?_ (.entry ?_ (.entry ?_ (.entry ?_ (.entry ?_ .nil))))))))
  · refine yields_comment fun l hl => ?_
    have e : Str.lit "# Material " ++ intStr m ++ Str.lit " \n" = (Str.lit "# Material " ++ intStr m ++ [' ']) ++ '\n' :: [] := by
      rw [List.append_assoc (Str.lit "# Material " ++ intStr m)]; rfl
    rw [e, linesOf_break, Logo.linesOf_plain _ (by
      simp only [List.mem_append, not_or]
      exact ⟨⟨by decide, plain_noBreak (intStr_plain m)⟩, by decide⟩), Logo.linesOf_plain _ (by decide)] at hl
    simp only [List.singleton_append, List.mem_cons, List.not_mem_nil, or_false] at hl
    rcases hl with rfl | rfl
    · exact .inr rfl
    · exact .inl rfl
  · have e : matKey m ++ Str.lit "material-name = " ++ a.name.toList =
        materialKey m "material-name" ++ [' '] ++ '=' :: (' ' :: a.name.toList) := by
      simp only [matKey, materialKey, List.append_assoc]; rfl
    rw [e]
    exact yields_key_space m (by decide) (by decide) (neat_value hname).1 (neat_value hname).2
  · have e : matKey m ++ Str.lit "material-element = " ++ info.type a =
        materialKey m "material-element" ++ [' '] ++ '=' :: (' ' :: info.type a) := by
      simp only [matKey, materialKey, List.append_assoc]; rfl
    rw [e]
    exact yields_key_space m (by decide) (by decide) (neat_value htype).1 (neat_value htype).2
  · obtain ⟨h1, h2, -⟩ := hR.repr x
    have e : matKey m ++ Str.lit "atomic-spin-moment=" ++ repr x ++ Str.lit " ! muB" =
        materialKey m "atomic-spin-moment" ++ '=' :: (repr x ++ Str.lit " ! muB") := by
      simp only [matKey, materialKey, List.append_assoc]; rfl
    rw [e]
    refine yields_key m (by decide) (by decide) ?_ ?_
    · rw [List.mem_append, not_or]
      exact ⟨plain_noBreak h1, by decide⟩
    · rw [uncomment_append h1.hash h2, show uncomment (Str.lit " ! muB") = [' '] by decide, strip_space_right h1.space]
  · have e : matKey m ++ Str.lit "initial-spin-direction = " ++ directionText F (info.direction a) =
        materialKey m "initial-spin-direction" ++ [' '] ++ '=' :: (' ' :: directionText F (info.direction a)) := by
      simp only [matKey, materialKey, List.append_assoc]; rfl
    have hd := direction_neat hR (info.direction a)
    rw [e]
    exact yields_key_space m (by decide) (by decide) (neat_value hd).1 (neat_value hd).2
  · have e : matKey m ++ Str.lit "damping-constant=0.1" = materialKey m "damping-constant" ++ '=' :: Str.lit "0.1" := by
      simp only [matKey, materialKey, List.append_assoc]; rfl
    rw [e]
    exact yields_key m (by decide) (by decide) (by decide) (by decide)
  · have e : matKey m ++ Str.lit "uniaxial-anisotropy-constant=0.0" =
        materialKey m "uniaxial-anisotropy-constant" ++ '=' :: Str.lit "0.0" := by
      simp only [matKey, materialKey, List.append_assoc]; rfl
    rw [e]
    exact yields_key m (by decide) (by decide) (by decide) (by decide)

/-! ### Values -/

theorem valueOf_mem {keys : List (Str × Str)} (h : (keys.map Prod.fst).Nodup) {k v : Str} (hm : (k, v) ∈ keys) :
    valueOf keys k = some v := by
  induction keys with
  | nil => simp at hm
  | cons p keys ih =>
    rw [List.map_cons, List.nodup_cons] at h
    rcases List.mem_cons.1 hm with rfl | hm
    · simp [valueOf]
    · have : p.1 ≠ k := fun e => h.1 (List.mem_map.2 ⟨(k, v), hm, e.symm⟩)
      rw [valueOf, List.find?_cons_of_neg (by simpa using this)]
      exact ih h.2 hm

/-- All keys of a .mat file. -/
def matKeys (F : NumFmt K) (repr : K → Str) (info : AtomInfo K) (n : ℤ) (bl : List (ℤ × Atom)) (sp : Atom → K) : List (Str × Str) :=
  (Str.lit "material:num-materials", intStr n) :: bl.flatMap fun p => blockKeys F repr info p.1 p.2 (sp p.2)

theorem matKeys_nodup (n : ℤ) (bl : List (ℤ × Atom)) (h : (bl.map Prod.fst).Nodup) (sp : Atom → K) :
    ((matKeys F repr info n bl sp).map Prod.fst).Nodup := by
  rw [matKeys, List.map_cons, List.nodup_cons, List.map_flatMap]
  simp only [blockKeys_fst]
  constructor
  · intro hm
    obtain ⟨p, -, hp⟩ := List.mem_flatMap.1 hm
    obtain ⟨w, -, hw⟩ := List.mem_map.1 hp
    have := congrArg (fun l : Str => l[8]?) hw
    simp only [materialKey, List.append_assoc] at this
    rw [List.getElem?_append_left (by decide)] at this
    exact absurd this (by decide)
  · induction bl with
    | nil => simp
    | cons p bl ih =>
      rw [List.map_cons, List.nodup_cons] at h
      rw [List.flatMap_cons, List.nodup_append]
      refine ⟨?_, ih h.2, ?_⟩
      · exact List.Nodup.map (fun a b e => (materialKey_inj e).2) (by decide)
      · rintro a ha b hb rfl
        obtain ⟨w, -, rfl⟩ := List.mem_map.1 ha
        obtain ⟨q, hq, hb⟩ := List.mem_flatMap.1 hb
        obtain ⟨w', -, e⟩ := List.mem_map.1 hb
        exact h.1 (List.mem_map.2 ⟨q, hq, (materialKey_inj e).1⟩)

end Magnopy.Vampire
