import Verif.Lemmas.Logo
import Verif.Lemmas.TxtDumpSample

/-!
# Property C77: the layout of the logo
-/

set_option autoImplicit false
set_option linter.unusedSectionVars false

namespace Magnopy
namespace Logo

/-- The result of `logo` from its rows. -/
theorem logo_eq (e : Env) (info : Option (List Str)) (ll : Option ℤ) (flat date : Bool) (comment : Comment) {B : List Str}
    (hB : (if (info.getD (e.standard date)).length > 0 then rows (titleWidth flat) 12 (info.getD (e.standard date)) else pure []) =
      Except.ok B) :
    logo e info ll flat date comment = .ok (List.intercalate ['\n'] (((title flat).map (center (titleWidth flat)) ++ B).map fun x =>
      comment.text ++ center (max (ll.getD 0).toNat (titleWidth flat)) x)) := by
  have h1 : ∀ flat, ∃ x, index (title flat) 0 = .ok x ∧ x.length = titleWidth flat := by
    intro flat
    cases flat <;> exact ⟨_, rfl, by decide +kernel⟩
  obtain ⟨x, hx, hxl⟩ := h1 flat
  obtain ⟨c, hc, hcl⟩ : ∃ x, index cat 0 = .ok x ∧ x.length = 10 := ⟨_, rfl, by decide +kernel⟩
  have hw : lineWidth (titleWidth flat) ll = max (ll.getD 0).toNat (titleWidth flat) := by
    cases ll with
    | none => simp [lineWidth]
    | some l =>
      simp only [Option.getD_some, lineWidth]
      split_ifs with h <;> omega
  have hne : ((title flat).map (center (titleWidth flat)) ++ B).map (fun x =>
      comment.text ++ center (max (ll.getD 0).toNat (titleWidth flat)) x) ≠ [] := by
    cases flat <;> simp [title, plain, bold]
  rw [← join_lines _ hne, List.map_map]
  unfold logo
  simp only [show (if flat = true then plain else bold) = title flat from rfl, hx, hc]
  simp only [bind, Except.bind, hxl, hcl, hw]
  split_ifs at hB ⊢ with h
  · rw [show 10 + 2 = 12 from rfl, hB]
    rfl
  · obtain rfl : [] = B := by simpa [pure, Except.pure] using hB
    rfl

/-- **C77, the layout.** With `texts` the given or the standard information and `p` the text in front of every line: the result
consists of the title, and, if there are texts, of as many lines as texts, but at least seven.  The title and the picture are
complete and in order.  Up to seven texts stand in the middle beside the picture; more texts start `(m - 7) / 2` lines below the
title, and the last ones follow in the lines above them.  Up to eight texts are in order.  If no text is longer than the title
without the picture, all lines have the same length: the requested one, but not less than the title.  Neither comments nor texts
without line breaks lead to more lines. -/
theorem C77_layout_partial (e : Env) (info : Option (List Str)) (ll : Option ℤ) (flat date : Bool) (comment : Comment)
    (hc : comment ≠ .bool false) :
    let texts := info.getD (e.standard date)
    let m := texts.length
    let p := Asked comment
    let T := (title flat).length
    ∃ L : List Str, logo e info ll flat date comment = .ok (List.intercalate ['\n'] L) ∧
      L.length = T + (if texts = [] then 0 else max 7 m) ∧
      (∀ l ∈ L, ∃ t, l = p ++ t) ∧
      (∀ (i : ℕ) x, (title flat)[i]? = some x → ∃ line, L[i]? = some (p ++ line) ∧ Shows line x) ∧
      (texts ≠ [] → m ≤ 7 → ∀ (i : ℕ) c, cat[i]? = some c → ∃ line, L[T + i]? = some (p ++ line) ∧
        Row line (if (8 - m) / 2 ≤ i then (texts[i - (8 - m) / 2]?).getD [] else []) (some c)) ∧
      (7 < m → ∀ i < m, ∃ line x, texts[(i + (m - (m - 7) / 2)) % m]? = some x ∧ L[T + i]? = some (p ++ line) ∧
        Row line x (if (m - 7) / 2 ≤ i then cat[i - (m - 7) / 2]? else none)) ∧
      (m ≤ 8 → InOrder p L texts) ∧
      ((∀ x ∈ texts, x.length ≤ titleWidth flat - 12) →
        ∀ l ∈ L, l.length = p.length + max (ll.getD 0).toNat (titleWidth flat)) ∧
      ((∀ x ∈ texts, '\n' ∉ x) → '\n' ∉ p → linesOf (List.intercalate ['\n'] L) = L) := by
  intro texts m p T
  have hp : comment.text = p := by
    cases comment with
    | none => rfl
    | bool b => cases b with
      | true => rfl
      | false => exact absurd rfl hc
    | str s => rfl
  let W := max (ll.getD 0).toNat (titleWidth flat)
  have hT : ((title flat).map (center (titleWidth flat))).length = T := List.length_map _
  have hpre : ∀ B : List Str, ∀ l ∈ B.map (fun x => p ++ center W x), ∃ t, l = p ++ t := by
    intro B l hl
    obtain ⟨x, _, rfl⟩ := List.mem_map.1 hl
    exact ⟨_, rfl⟩
  -- the title
  have htitle : ∀ (B : List Str) (i : ℕ) x, (title flat)[i]? = some x → ∃ line,
      (((title flat).map (center (titleWidth flat)) ++ B).map fun x => p ++ center W x)[i]? = some (p ++ line) ∧ Shows line x := by
    intro B i x hx
    have hi : i < ((title flat).map (center (titleWidth flat))).length := by
      rw [hT]
      by_contra h
      rw [List.getElem?_eq_none (by omega)] at hx
      simp at hx
    refine ⟨center W (center (titleWidth flat) x), ?_, ?_⟩
    · rw [List.getElem?_map, List.getElem?_append_left hi, List.getElem?_map, hx]
      rfl
    · have hxl : center (titleWidth flat) x = x := by
        have := (title_rows flat x (List.mem_of_getElem? hx)).1
        simp [center, this]
      rw [hxl]
      exact center_shows _ _
  -- below
  have hbelow : ∀ (B : List Str) (i : ℕ) line, B[i]? = some line →
      (((title flat).map (center (titleWidth flat)) ++ B).map fun x => p ++ center W x)[T + i]? = some (p ++ center W line) := by
    intro B i line h
    rw [List.getElem?_map, List.getElem?_append_right (by omega), hT, Nat.add_sub_cancel_left, h]
    rfl
  -- lengths
  have hlen : ∀ B : List Str, (∀ l ∈ B, l.length ≤ titleWidth flat) →
      ∀ l ∈ ((title flat).map (center (titleWidth flat)) ++ B).map (fun x => p ++ center W x), l.length = p.length + W := by
    intro B hB l hl
    obtain ⟨x, hx, rfl⟩ := List.mem_map.1 hl
    rw [List.length_append, center_length]
    rcases List.mem_append.1 hx with h | h
    · obtain ⟨y, hy, rfl⟩ := List.mem_map.1 h
      rw [center_length (title_rows flat y hy).1.le]
      exact le_max_right _ _
    · exact (hB x h).trans (le_max_right _ _)
  -- line breaks
  have hnl : ∀ B : List Str, '\n' ∉ p → (∀ l ∈ B, '\n' ∉ l) →
      linesOf (List.intercalate ['\n'] (((title flat).map (center (titleWidth flat)) ++ B).map fun x => p ++ center W x)) =
        ((title flat).map (center (titleWidth flat)) ++ B).map fun x => p ++ center W x := by
    intro B h0 hB
    refine linesOf_join (by cases flat <;> simp [title, plain, bold]) ?_
    intro l hl
    obtain ⟨x, hx, rfl⟩ := List.mem_map.1 hl
    rw [List.mem_append, not_or]
    refine ⟨h0, center_no_newline ?_⟩
    rcases List.mem_append.1 hx with h | h
    · obtain ⟨y, hy, rfl⟩ := List.mem_map.1 h
      exact center_no_newline (title_rows flat y hy).2
    · exact hB x h
  by_cases h0 : texts = []
  · have hm : m = 0 := by simp [m, h0]
    have := logo_eq e info ll flat date comment (B := []) (by
      rw [if_neg (by simpa [m] using hm)]; rfl)
    rw [hp] at this
    refine ⟨_, this, ?_, hpre _, htitle [], fun h => absurd h0 h, fun h => by omega, fun _ => ⟨0, fun j x hx => ?_⟩, fun _ => ?_, fun _ h => ?_⟩
    · rw [List.length_map, List.length_append, hT, if_pos h0]; rfl
    · rw [h0] at hx; simp at hx
    · exact hlen [] (by simp)
    · exact hnl [] h (by simp)
  · have hm : 0 < m := List.length_pos_iff.2 h0
    by_cases h7 : m ≤ 7
    · obtain ⟨B, e1, e2, e3⟩ := rows_few (titleWidth flat) (info := texts) h7
      have := logo_eq e info ll flat date comment (B := B) (by rw [if_pos hm]; exact e1)
      rw [hp] at this
      have hget : ∀ i < 7, ∃ line, B[i]? = some line := fun i hi => ⟨_, List.getElem?_eq_getElem (by rw [e2]; exact hi)⟩
      have hleft : ∀ i : ℕ, (if (8 - m) / 2 ≤ i then (texts[i - (8 - m) / 2]?).getD [] else []) = [] ∨
          (if (8 - m) / 2 ≤ i then (texts[i - (8 - m) / 2]?).getD [] else []) ∈ texts := by
        intro i
        split_ifs
        · cases h : texts[i - (8 - m) / 2]? with
          | none => exact Or.inl rfl
          | some x => exact Or.inr (List.mem_of_getElem? h)
        · exact Or.inl rfl
      have hi7 : ∀ (i : ℕ) line, B[i]? = some line → i < 7 := fun i line h => by
        by_contra hcon
        rw [List.getElem?_eq_none (by omega)] at h
        simp at h
      refine ⟨_, this, ?_, hpre _, htitle B, fun _ _ i c hc => ?_, fun h => by omega, fun _ => ⟨T + (8 - m) / 2, fun j x hx => ?_⟩, fun h => ?_,
        fun h hn => ?_⟩
      · rw [List.length_map, List.length_append, hT, if_neg h0, e2, max_eq_left h7]
      · have hi : i < 7 := by
          by_contra hcon
          rw [List.getElem?_eq_none (by rw [cat_length]; omega)] at hc
          simp at hc
        obtain ⟨line, hl⟩ := hget i hi
        refine ⟨center W line, hbelow B i line hl, ?_⟩
        have := (e3 i line hl).1.center W
        rw [hc] at this
        exact this
      · have hj : j < m := by
          by_contra hcon
          rw [List.getElem?_eq_none (by omega)] at hx
          simp at hx
        obtain ⟨line, hl⟩ := hget ((8 - m) / 2 + j) (by omega)
        refine ⟨center W line, cat[(8 - m) / 2 + j]?, ?_, ?_⟩
        · rw [add_assoc]; exact hbelow B _ line hl
        · have := (e3 _ line hl).1.center W
          rw [if_pos (by omega), show (8 - texts.length) / 2 + j - (8 - texts.length) / 2 = j by omega, hx] at this
          exact this
      · refine hlen B fun l hl => ?_
        obtain ⟨i, hi⟩ := List.mem_iff_getElem?.1 hl
        obtain ⟨c, hc, _⟩ := cat_rows (hi7 i l hi)
        have h1 := (e3 i l hi).2.1 ((hleft i).elim (fun h => by rw [h]; simp) fun hm => h _ hm) (by rw [hc]; simp)
        rw [h1]
        cases flat <;> simp [titleWidth]
      · refine hnl B hn fun l hl => ?_
        obtain ⟨i, hi⟩ := List.mem_iff_getElem?.1 hl
        exact (e3 i l hi).2.2.2 ((hleft i).elim (fun h => by rw [h]; simp) fun hm => h _ hm)
    · have h7' : 7 < m := by omega
      obtain ⟨B, e1, e2, e3⟩ := rows_many (titleWidth flat) (info := texts) h7'
      have := logo_eq e info ll flat date comment (B := B) (by rw [if_pos hm]; exact e1)
      rw [hp] at this
      have hget : ∀ i < m, ∃ line, B[i]? = some line := fun i hi => ⟨_, List.getElem?_eq_getElem (by rw [e2]; exact hi)⟩
      have hleft : ∀ i, ∃ x ∈ texts, texts[(i + (m - (m - 7) / 2)) % m]? = some x := fun i => by
        have hlt : (i + (m - (m - 7) / 2)) % m < texts.length := Nat.mod_lt _ hm
        exact ⟨_, List.getElem_mem hlt, List.getElem?_eq_getElem hlt⟩
      have him : ∀ (i : ℕ) line, B[i]? = some line → i < m := fun i line h => by
        by_contra hcon
        rw [List.getElem?_eq_none (by omega)] at h
        simp at h
      refine ⟨_, this, ?_, hpre _, htitle B, fun _ h => absurd h h7, fun _ i hi => ?_, fun h8 => ⟨T, fun j x hx => ?_⟩, fun h => ?_,
        fun h hn => ?_⟩
      · rw [List.length_map, List.length_append, hT, if_neg h0, e2, max_eq_right h7'.le]
      · obtain ⟨line, hl⟩ := hget i hi
        obtain ⟨x, _, hx⟩ := hleft i
        refine ⟨center W line, x, hx, hbelow B i line hl, ?_⟩
        have := (e3 i line hl).1.center W
        rw [hx] at this
        exact this
      · have hj : j < m := by
          by_contra hcon
          rw [List.getElem?_eq_none (by omega)] at hx
          simp at hx
        obtain ⟨line, hl⟩ := hget j hj
        have h8 : m = 8 := by omega
        have e4 := (e3 j line hl).1.center W
        rw [show texts.length = 8 from h8] at e4
        simp only [Nat.reduceSub, Nat.reduceDiv, Nat.sub_zero, Nat.add_mod_right, Nat.mod_eq_of_lt (by omega : j < 8), hx] at e4
        exact ⟨center W line, _, hbelow B j line hl, e4⟩
      · refine hlen B fun l hl => ?_
        obtain ⟨i, hi⟩ := List.mem_iff_getElem?.1 hl
        obtain ⟨x, hx1, hx2⟩ := hleft i
        have h1 := e3 i l hi
        rw [hx2] at h1
        by_cases hr : (if (texts.length - 7) / 2 ≤ i then cat[i - (texts.length - 7) / 2]? else none) = none
        · rw [h1.2.2.1 (h x hx1) hr]
          omega
        · rw [h1.2.1 (h x hx1) hr]
          cases flat <;> simp [titleWidth]
      · refine hnl B hn fun l hl => ?_
        obtain ⟨i, hi⟩ := List.mem_iff_getElem?.1 hl
        obtain ⟨x, hx1, hx2⟩ := hleft i
        have h1 := e3 i l hi
        rw [hx2] at h1
        exact h1.2.2.2 (h x hx1)

/-- **C77, comments.** With `comment=True` and information without line breaks every line of the logo is a comment, which the
reader of model files drops, so the assumption on the logo in C50 and C67 holds for the logo that is written. -/
theorem C77_ignored (e : Env) (info : Option (List Str)) (ll : Option ℤ) (flat date : Bool)
    (h : ∀ x ∈ info.getD (e.standard date), '\n' ∉ x) :
    ∃ text, logo e info ll flat date (.bool true) = .ok text ∧ (∀ l ∈ linesOf text, ∃ t, l = '#' :: ' ' :: t) ∧
      Txt.filter (linesOf text) = [] := by
  have hfil : ∀ (L : List Str) (n : ℕ), (∀ l ∈ L, ∃ t, l = '#' :: ' ' :: t) → Txt.filterFrom n L = [] := by
    intro L
    induction L with
    | nil => intro n _; rfl
    | cons l L ih =>
      intro n hL
      obtain ⟨t, rfl⟩ := hL l List.mem_cons_self
      rw [Txt.filterFrom, if_pos (by simp [Str.startsWith])]
      exact ih _ fun x hx => hL x (List.mem_cons_of_mem _ hx)
  obtain ⟨L, h2, _, h3, _, _, _, _, _, h4⟩ := C77_layout_partial e info ll flat date (.bool true) (by simp)
  have h5 : ∀ l ∈ linesOf (List.intercalate ['\n'] L), ∃ t, l = '#' :: ' ' :: t := by
    rw [h4 h (by decide)]
    exact h3
  exact ⟨_, h2, h5, hfil _ 0 h5⟩

/-- The texts of the counterexamples. -/
def digits (n : ℕ) : List Str := (List.range n).map fun i => [Char.ofNat (49 + i)]

/-- An environment. -/
def env : Env := ⟨Str.lit "0.0.0", Str.lit "magnopy.org", Str.lit "undefined", Str.lit "2025", Str.lit "1 May 2025 at 12:0:0 "⟩

/-- **C77, order.** Nine texts are not in order: the last one stands above the first one. -/
theorem C77_order_false : ¬ ∀ (e : Env) (texts : List Str), (∀ x ∈ texts, x.length ≤ 58 ∧ '\n' ∉ x) →
    ∃ text, logo e (some texts) none false false .none = .ok text ∧ InOrder [] (linesOf text) texts := by
  intro h
  obtain ⟨text, h1, start, h2⟩ := h env (digits 9) (by decide)
  have h3 : (match logo env (some (digits 9)) none false false .none with
    | .ok t => linesOf t
    | .error _ => []).length = 15 ∧ ∀ l ∈ (match logo env (some (digits 9)) none false false .none with
    | .ok t => linesOf t
    | .error _ => []).take 7, '1' ∉ l := by
    decide +kernel
  rw [h1] at h3
  simp only at h3
  obtain ⟨l8, _, e8, _⟩ := h2 8 ['9'] (by decide)
  have hs : start + 8 < 15 := by
    rw [← h3.1]
    by_contra hcon
    rw [List.getElem?_eq_none (by omega)] at e8
    simp at e8
  obtain ⟨l1, _, e1, a, b, l, r, rfl, ⟨c, d, rfl⟩, _⟩ := h2 0 ['1'] (by decide)
  exact h3.2 _ (List.mem_of_getElem? (i := start) (by rw [List.getElem?_take, if_pos (by omega)]; exact e1)) (by simp)

/-- **C77, comment=False.** The word `False` is printed in front of every line. -/
theorem C77_comment_false (e : Env) (info : Option (List Str)) (ll : Option ℤ) (flat date : Bool) :
    ∃ L, logo e info ll flat date (.bool false) = .ok (List.intercalate ['\n'] L) ∧ L ≠ [] ∧
      ∀ l ∈ L, ∃ t, l = Str.lit "False" ++ t := by
  have h : logo e info ll flat date (.bool false) = logo e info ll flat date (.str (Str.lit "False")) := rfl
  rw [h]
  obtain ⟨L, h1, h2, h3, _⟩ := C77_layout_partial e info ll flat date (.str (Str.lit "False")) (by simp)
  refine ⟨L, h1, ?_, h3⟩
  rintro rfl
  have : (title flat).length ≠ 0 := by cases flat <;> decide
  simp only [List.length_nil] at h2
  omega

/-- **C77, the flat logo.** A text of 58 characters, which the documentation allows, gives a longer line. -/
theorem C77_width_false : ¬ ∀ (e : Env) (texts : List Str) (flat : Bool), (∀ x ∈ texts, x.length ≤ 58 ∧ '\n' ∉ x) →
    ∃ text W, logo e (some texts) none flat false .none = .ok text ∧ ∀ l ∈ linesOf text, l.length = W := by
  intro h
  obtain ⟨text, W, h1, h2⟩ := h env [List.replicate 58 'x'] true (by decide)
  have h3 : (match logo env (some [List.replicate 58 'x']) none true false .none with
    | .ok t => linesOf t
    | .error _ => []).map List.length = [69, 69, 69, 69, 69, 69, 69, 69, 70, 69, 69, 69] := by
    decide +kernel
  rw [h1] at h3
  simp only at h3
  have h4 : ∀ n ∈ (linesOf text).map List.length, n = W := by
    intro n hn
    obtain ⟨l, hl, rfl⟩ := List.mem_map.1 hn
    exact h2 l hl
  rw [h3] at h4
  have := h4 69 (by simp)
  have := h4 70 (by simp)
  omega

/-! ### Examples -/

/-- C77: the standard logo as a comment has 13 lines of 72 characters; the ninth names the documentation beside the picture. -/
example : ∃ text, logo env none none false false (.bool true) = .ok text ∧ (linesOf text).map List.length = List.replicate 13 72 ∧
    (linesOf text)[8]? = some (Str.lit "#                 Documentation: magnopy.org                 █▄█▄█      ") := by
  refine ⟨_, rfl, ?_, ?_⟩ <;> decide +kernel

/-- C77: nine texts below a flat logo, the last text is above the first. -/
example : ∃ text, logo env (some (digits 9)) (some 80) true false .none = .ok text ∧
    ((linesOf text).drop 5).map (fun l => l.filter (· ∉ (' ' :: cat.flatten))) = [['9'], ['1'], ['2'], ['3'], ['4'], ['5'], ['6'], ['7'], ['8']] := by
  refine ⟨_, rfl, ?_⟩
  decide +kernel

/-- C77, comments: the assumption of the theorems on model files holds for the written logo. -/
example : ∃ text, logo env none none false false (.bool true) = .ok text ∧
    Txt.Prints (Txt.decimalFmt (K := ℚ) (linesOf text)) (Txt.decimalLib (fun _ => 0) (fun _ => 0) (fun _ => 1) id) := by
  obtain ⟨text, h1, h2, _⟩ := C77_ignored env none none false false (by decide)
  refine ⟨text, h1, Txt.decimal_prints (fun l hl => ?_) _ _ _ _⟩
  obtain ⟨t, rfl⟩ := h2 l hl
  exact ⟨_, rfl⟩

end Logo
end Magnopy
