import Verif.Lemmas.HamCons

/-!
# Helper lemmas: deletions as filters of the dictionaries
-/

set_option autoImplicit false

set_option linter.unusedSectionVars false

namespace Magnopy

open PyDict

theorem PyDict.del_eq_filter {α β : Type*} [DecidableEq α] {d : PyDict α β} (hd : d.keys.Nodup) (k : α) :
    d.del k = d.filter fun p => p.1 ≠ k := by
  induction d with
  | nil => rfl
  | cons p d ih =>
    obtain ⟨a, v⟩ := p
    simp only [keys_cons, List.nodup_cons] at hd
    by_cases h : a = k
    · subst h
      simp only [del, if_true, ne_eq, not_true_eq_false, decide_false, Bool.false_eq_true, not_false_eq_true,
        List.filter_cons_of_neg]
      symm
      rw [List.filter_eq_self]
      intro q hq
      have : q.1 ≠ a := by
        rintro rfl
        exact hd.1 (List.mem_map_of_mem hq)
      simpa using this
    · simp only [del, h, if_false, ne_eq, not_false_eq_true, decide_true, List.filter_cons_of_pos]
      rw [ih hd.2]

namespace St

variable {K : Type*} [Field K]

theorem dropBond_eq {s : St K} (hs : s.KeysNodup) {b : Bond} {f : Bool} (h : b ∈ s.exch.keys ∨ f = false) :
    s.dropBond b f = .ok { s with exch := s.exch.filter fun p => p.1 ≠ b ∧ ¬ (s.dc = some true ∧ p.1 = b.mirror) } := by
  have h0 : ¬ (s.exch.get? b = none ∧ f = true) := by
    rw [get?_eq_none_iff]
    rintro ⟨h1, h2⟩
    rcases h with h | h
    · exact h1 h
    · rw [h] at h2; cases h2
  unfold dropBond
  rw [if_neg h0]
  dsimp only
  split_ifs with h1
  · rw [del_eq_filter (nodup_del hs.exch _), del_eq_filter hs.exch, List.filter_filter]
    have : (fun p : Bond × ℕ => decide (p.1 ≠ b.mirror) && decide (p.1 ≠ b)) =
        fun p => decide (p.1 ≠ b ∧ ¬ (s.dc = some true ∧ p.1 = b.mirror)) := by
      funext p
      by_cases h2 : p.1 = b <;> by_cases h3 : p.1 = b.mirror <;> simp [h1.1, h2, h3]
    rw [this]
  · rw [del_eq_filter hs.exch]
    suffices this : s.exch.filter (fun p => decide (p.1 ≠ b)) =
        s.exch.filter (fun p => decide (p.1 ≠ b ∧ ¬ (s.dc = some true ∧ p.1 = b.mirror))) by
      rw [this]
    apply List.filter_congr
    rintro ⟨c, r⟩ hc
    by_cases hd : s.dc = some true
    · have hm : b.mirror ∉ (s.exch.del b).keys := by
        rw [← get?_eq_none_iff]
        by_contra h2
        exact h1 ⟨hd, h2⟩
      rw [mem_keys_del hs.exch] at hm
      have hck : c ∈ s.exch.keys := List.mem_map_of_mem (f := Prod.fst) hc
      by_cases hcb : c = b
      · simp [hcb]
      · have : c ≠ b.mirror := by
          rintro rfl; exact hm ⟨hcb, hck⟩
        simp [hcb, this]
    · simp [hd]

theorem removeOnSite_eq {s : St K} (hs : s.KeysNodup) {a : Atom} {f : Bool} (h : a ∈ s.onSite.keys) :
    s.removeOnSite (.atom a) f = .ok { s with onSite := s.onSite.filter fun p => p.1 ≠ a } := by
  have : s.onSite.get? a ≠ none := by rw [Ne, get?_eq_none_iff]; simpa using h
  simp only [removeOnSite, this, if_false]
  rw [del_eq_filter hs.site]

/-- The entry is stored. -/
def Has (s : St K) : Bond ⊕ Atom → Prop
  | .inl b => b ∈ s.exch.keys
  | .inr a => a ∈ s.onSite.keys

/-- The bond is deleted when the entries `ks` are deleted one after another. -/
def Kill (ks : List (Bond ⊕ Atom)) (dc : Option Bool) (b : Bond) : Prop :=
  Sum.inl b ∈ ks ∨ (dc = some true ∧ Sum.inl b.mirror ∈ ks)

open scoped Classical in
/-- The state after deleting the entries `ks`. -/
noncomputable def killed (s : St K) (ks : List (Bond ⊕ Atom)) : St K :=
  { s with exch := s.exch.filter fun p => ¬ Kill ks s.dc p.1
           onSite := s.onSite.filter fun p => Sum.inr p.1 ∉ ks }

theorem killed_nodup {s : St K} (hs : s.KeysNodup) (ks : List (Bond ⊕ Atom)) : (s.killed ks).KeysNodup :=
  ⟨(List.Sublist.map Prod.fst List.filter_sublist).nodup hs.exch,
   (List.Sublist.map Prod.fst List.filter_sublist).nodup hs.site⟩

theorem mem_filter_keys {α β : Type*} {d : PyDict α β} {p : α → Bool} {k : α} :
    k ∈ keys (List.filter (fun q : α × β => p q.1) d) ↔ k ∈ d.keys ∧ p k = true := by
  simp only [keys, List.mem_map, List.mem_filter]
  constructor
  · rintro ⟨q, ⟨hq, hp⟩, rfl⟩; exact ⟨⟨q, hq, rfl⟩, hp⟩
  · rintro ⟨⟨q, hq, rfl⟩, hp⟩; exact ⟨q, ⟨hq, hp⟩, rfl⟩

theorem mem_killed_exch {s : St K} {ks : List (Bond ⊕ Atom)} {b : Bond} :
    b ∈ (s.killed ks).exch.keys ↔ b ∈ s.exch.keys ∧ ¬ Kill ks s.dc b := by
  classical
  have := mem_filter_keys (d := s.exch) (p := fun b => decide (¬ Kill ks s.dc b)) (k := b)
  simpa [killed] using this

theorem mem_killed_site {s : St K} {ks : List (Bond ⊕ Atom)} {a : Atom} :
    a ∈ (s.killed ks).onSite.keys ↔ a ∈ s.onSite.keys ∧ Sum.inr a ∉ ks := by
  classical
  have := mem_filter_keys (d := s.onSite) (p := fun b => decide (Sum.inr b ∉ ks)) (k := a)
  simpa [killed] using this

theorem killed_congr {s : St K} {l l' : List (Bond × ℕ)} {o o' : List (Atom × ℕ)} (h : l = l') (h' : o = o') :
    ({ s with exch := l, onSite := o } : St K) = { s with exch := l', onSite := o' } := by rw [h, h']

open scoped Classical in
/-- Deleting one more entry that is still present. -/
theorem delEntry_killed {s : St K} (hs : s.KeysNodup) (done : List (Bond ⊕ Atom)) (k : Bond ⊕ Atom)
    (hk : (s.killed done).Has k) :
    delEntry k (s.killed done) = .ok (s.killed (done ++ [k])) := by
  have hkn := killed_nodup hs done
  cases k with
  | inl b =>
    simp only [Has] at hk
    have e : delEntry (.inl b) (s.killed done) = (s.killed done).dropBond b true := rfl
    rw [e, dropBond_eq hkn (Or.inl hk)]
    congr 1
    refine killed_congr ?_ ?_
    · unfold killed
      rw [List.filter_filter]
      apply List.filter_congr
      intro p _
      rw [Bool.eq_iff_iff, Bool.and_eq_true, decide_eq_true_iff, decide_eq_true_iff, decide_eq_true_iff]
      simp only [Kill, List.mem_append, List.mem_singleton, Sum.inl.injEq]
      rw [Bond.mirror_eq_iff]
      tauto
    · apply List.filter_congr
      intro p _
      rw [Bool.eq_iff_iff]
      simp
  | inr a =>
    simp only [Has] at hk
    have e : delEntry (.inr a) (s.killed done) = (s.killed done).removeOnSite (.atom a) true := rfl
    rw [e, removeOnSite_eq hkn hk]
    congr 1
    refine killed_congr ?_ ?_
    · apply List.filter_congr
      intro p _
      rw [Bool.eq_iff_iff, decide_eq_true_iff, decide_eq_true_iff]
      simp [Kill]
    · simp only [killed, List.filter_filter]
      apply List.filter_congr
      intro p _
      rw [Bool.eq_iff_iff]
      simp only [Bool.and_eq_true, decide_eq_true_eq, List.mem_append, List.mem_singleton, Sum.inr.injEq]
      tauto

/-- Deleting an entry that is already gone raises `KeyError`. -/
theorem delEntry_absent {s : St K} (k : Bond ⊕ Atom)
    (hk : ¬ s.Has k) :
    delEntry k s = .raise s .keyError := by
  cases k with
  | inl b =>
    have e : delEntry (.inl b) s = s.dropBond b true := rfl
    rw [e, dropBond, if_pos ⟨get?_eq_none_iff.2 hk, rfl⟩]
  | inr a =>
    simp only [delEntry, delItem, removeOnSite, get?_eq_none_iff.2 hk, if_true]

open scoped Classical in
/-- Deleting an entry twice changes nothing. -/
theorem killed_again {s : St K} (done : List (Bond ⊕ Atom)) (k : Bond ⊕ Atom)
    (h0 : s.Has k)
    (hk : ¬ (s.killed done).Has k) :
    s.killed (done ++ [k]) = s.killed done := by
  cases k with
  | inl b =>
    simp only [Has] at h0 hk
    rw [mem_killed_exch, not_and, not_not] at hk
    have hb := hk h0
    refine killed_congr ?_ ?_
    · apply List.filter_congr
      intro p _
      rw [Bool.eq_iff_iff]
      have : Kill (done ++ [Sum.inl b]) s.dc p.1 ↔ Kill done s.dc p.1 := by
        simp only [Kill, List.mem_append, List.mem_singleton, Sum.inl.injEq]
        constructor
        · rintro ((h | rfl) | ⟨h1, h | h⟩)
          · exact Or.inl h
          · exact hb
          · exact Or.inr ⟨h1, h⟩
          · rcases hb with hb | hb
            · right; rw [h]; exact ⟨h1, hb⟩
            · left
              have := hb.2
              rw [← h, Bond.mirror_mirror] at this
              exact this
        · rintro (h | ⟨h1, h⟩)
          · exact Or.inl (Or.inl h)
          · exact Or.inr ⟨h1, Or.inl h⟩
      simp [this]
    · apply List.filter_congr
      intro p _
      rw [Bool.eq_iff_iff]
      simp
  | inr a =>
    simp only [Has] at h0 hk
    rw [mem_killed_site, not_and, not_not] at hk
    have hb := hk h0
    refine killed_congr ?_ ?_
    · apply List.filter_congr
      intro p _
      rw [Bool.eq_iff_iff, decide_eq_true_iff, decide_eq_true_iff]
      simp [Kill]
    · apply List.filter_congr
      intro p _
      rw [Bool.eq_iff_iff]
      by_cases h : p.1 = a
      · simp [h, hb]
      · simp [h]

/-- Deleting with `KeyError` ignored: exactly the entries `ks`, and with double counting their
mirrors, disappear; nothing is raised. -/
theorem forEach_catch_killed {s : St K} (hs : s.KeysNodup) (ks done : List (Bond ⊕ Atom))
    (h0 : ∀ k ∈ ks, s.Has k) :
    forEach ks (fun k t => catchKeyError (delEntry k t)) (s.killed done) = .ok (s.killed (done ++ ks)) := by
  induction ks generalizing done with
  | nil => simp [forEach]
  | cons k ks ih =>
    have step : catchKeyError (delEntry k (s.killed done)) = .ok (s.killed (done ++ [k])) := by
      by_cases hk : (s.killed done).Has k
      · rw [delEntry_killed hs done k hk]
        simp [catchKeyError]
      · rw [delEntry_absent k hk, killed_again done k (h0 k (by simp)) hk]
        simp [catchKeyError]
    simp only [forEach, step, Res.ok_andThen]
    rw [ih (done ++ [k]) (fun k hk => h0 k (by simp [hk]))]
    simp

/-- Deleting without catching: succeeds if every entry is still there when its turn comes. -/
theorem forEach_killed {s : St K} (hs : s.KeysNodup) (ks done : List (Bond ⊕ Atom)) (hn : (done ++ ks).Nodup)
    (hd : ∀ b, Sum.inl b ∈ done ++ ks → s.dc = some true → b.mirror = b)
    (h0 : ∀ k ∈ ks, s.Has k) :
    forEach ks delEntry (s.killed done) = .ok (s.killed (done ++ ks)) := by
  induction ks generalizing done with
  | nil => simp [forEach]
  | cons k ks ih =>
    have hkd : k ∉ done := by
      intro h
      rw [List.nodup_append] at hn
      exact hn.2.2 k h k (by simp) rfl
    have step : delEntry k (s.killed done) = .ok (s.killed (done ++ [k])) := by
      refine delEntry_killed hs done k ?_
      have := h0 k (by simp)
      cases k with
      | inl b =>
        refine mem_killed_exch.2 ⟨this, ?_⟩
        rintro (h | ⟨h1, h2⟩)
        · exact hkd h
        · rw [hd b (by simp) h1] at h2; exact hkd h2
      | inr a => exact mem_killed_site.2 ⟨this, hkd⟩
    simp only [forEach, step, Res.ok_andThen]
    rw [ih (done ++ [k]) (by simpa using hn) (by simpa using hd) (fun k hk => h0 k (by simp [hk]))]
    simp

/-- If an entry that is already gone is still to be deleted, the loop raises. -/
theorem forEach_gone_raises (ks : List (Bond ⊕ Atom)) {s : St K} (hs : s.Inv) {k : Bond ⊕ Atom} (hk : k ∈ ks)
    (hg : ¬ s.Has k) : (forEach ks delEntry s).err ≠ none := by
  induction ks generalizing s with
  | nil => cases hk
  | cons j ks ih =>
    simp only [forEach]
    rw [List.mem_cons] at hk
    by_cases hj : k = j
    · subst hj
      rw [delEntry_absent k hg]
      simp [Res.andThen]
    · have hk' : k ∈ ks := hk.resolve_left hj
      unfold Res.andThen
      cases he : (delEntry j s).err with
      | some e => simp [he]
      | none =>
        refine ih (delEntry_inv hs j) hk' ?_
        have := delEntry_sub hs.nodup j k (by cases k <;> exact hg)
        cases k <;> exact this

/-- With double counting, deleting a bond and its mirror one after the other raises. -/
theorem forEach_mirror_raises (ks : List (Bond ⊕ Atom)) {s : St K} (hs : s.Inv) (hdc : s.dc = some true) {b : Bond}
    (hne : b.mirror ≠ b) (h1 : Sum.inl b ∈ ks) (h2 : Sum.inl b.mirror ∈ ks) :
    (forEach ks delEntry s).err ≠ none := by
  induction ks generalizing s with
  | nil => cases h1
  | cons j ks ih =>
    simp only [forEach]
    unfold Res.andThen
    cases he : (delEntry j s).err with
    | some e => simp [he]
    | none =>
      have hinv := delEntry_inv hs j
      have hgone : ∀ c : Bond, j = Sum.inl c → ¬ (delEntry j s).st.Has (.inl c.mirror) := by
        rintro c rfl
        have e : delEntry (.inl c) s = s.dropBond c true := rfl
        rw [e] at he ⊢
        intro hc
        exact ((dropBond_keys hs.nodup c true he c.mirror).1 hc).2.2 ⟨hdc, rfl⟩
      have hdc' : (delEntry j s).st.dc = some true := by
        cases j with
        | inl c => exact (congrArg Ham.dc (dropBond_frame s c true).2 :).trans hdc
        | inr a =>
          simp only [delEntry, delItem, removeOnSite]
          split_ifs <;> exact hdc
      rw [List.mem_cons] at h1 h2
      rcases h1 with h1 | h1
      · have h2' : Sum.inl b.mirror ∈ ks := h2.resolve_left (fun h => hne (by
          have := h.trans h1.symm
          simpa using this))
        exact forEach_gone_raises ks hinv h2' (hgone b h1.symm)
      · rcases h2 with h2 | h2
        · refine forEach_gone_raises ks hinv h1 ?_
          have := hgone b.mirror h2.symm
          rwa [Bond.mirror_mirror] at this
        · exact ih hinv hdc' h1 h2

theorem delEntry_err (k : Bond ⊕ Atom) (s : St K) (e : PyErr) (h : (delEntry k s).err = some e) : e = .keyError := by
  cases k with
  | inl b =>
    have e' : delEntry (.inl b) s = s.dropBond b true := rfl
    rw [e'] at h
    have := (dropBond_err (s := s) (b := b) (f := true) (by rw [h]; simp)).2.1
    rw [h] at this
    simpa using this
  | inr a =>
    simp only [delEntry, delItem, removeOnSite] at h
    split_ifs at h
    · simpa using h.symm
    · simp at h

theorem forEach_delEntry_err (ks : List (Bond ⊕ Atom)) (s : St K) (e : PyErr)
    (h : (forEach ks delEntry s).err = some e) : e = .keyError := by
  induction ks generalizing s with
  | nil => simp [forEach] at h
  | cons k ks ih =>
    simp only [forEach, Res.andThen] at h
    cases he : (delEntry k s).err with
    | some e' =>
      simp only [he] at h
      exact delEntry_err k s e (he.trans (by simpa using h) |>.trans rfl)
    | none =>
      simp only [he] at h
      exact ih _ h

theorem killed_nil (s : St K) : s.killed [] = s := by
  simp [killed, Kill]

theorem get?_filter {α β : Type*} [DecidableEq α] (d : PyDict α β) (p : α → Bool) (k : α) :
    get? (List.filter (fun q : α × β => p q.1) d) k = if p k then d.get? k else none := by
  induction d with
  | nil => simp [get?]
  | cons q d ih =>
    obtain ⟨a, v⟩ := q
    by_cases hp : p a
    · rw [List.filter_cons_of_pos (by simpa using hp)]
      by_cases h : a = k
      · subst h; simp [get?, hp]
      · simp only [get?, h, if_false]; exact ih
    · rw [List.filter_cons_of_neg (by simpa using hp)]
      by_cases h : a = k
      · subst h; rw [ih]; simp [hp]
      · simp only [get?, h, if_false]; exact ih

end St
end Magnopy
