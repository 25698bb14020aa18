import Verif.Lemmas.TxtDumpClose

/-!
# Lemmas: exchange and on-site sections of a written file
-/

set_option autoImplicit false
set_option linter.unusedSectionVars false

namespace Magnopy
namespace Txt

open H5 (Full)
open Spec

theorem subSeparator_facts : isLong '-' subSeparator = true ∧ isShort '-' subSeparator = false ∧ NotSep '=' subSeparator := by
  refine ⟨by decide +kernel, by decide +kernel, by decide +kernel, by decide +kernel⟩

section
variable {K : Type} [Field K] [LinearOrder K]

/-! ### Exchange: text and verification -/

/-- The blocks of the bonds. -/
def bondBlocks (F : Fmt K) (o : Opts) (s : St K) (l : List (Bond × ℕ)) : List (List Str) :=
  l.map fun p => flt (bondText F o p.1 (s.dist p.1) (s.cell p.2))

theorem bonds_blocks {F : Fmt K} {o : Opts} {s : St K} {l : List (Bond × ℕ)} (h : ∀ p ∈ l, ¬ (p.1.1 = p.1.2.1 ∧ p.1.2.2 = (0, 0, 0))) :
    subSeparator :: flt (bondsText F o s l) = blocksText subSeparator (bondBlocks F o s l) := by
  induction l with
  | nil => rfl
  | cons p l ih =>
    have ih := ih fun q hq => h q (by simp [hq])
    rw [bondsText, if_neg (h p (by simp)), flt_append, flt_append, flt_subSeparator, flt_nil, List.append_assoc, List.singleton_append, ih]
    simp [bondBlocks, blocksText]

theorem exchange_text {F : Fmt K} {o : Opts} {s : St K} (h0 : s.exch ≠ [])
    (h : ∀ b ∈ s.exch.keys, ¬ (b.1 = b.2.1 ∧ b.2.2 = (0, 0, 0))) :
    ∃ ls c, exchangeText F o s = ls ++ [separator] ∧ flt ls = c :: blocksText subSeparator (bondBlocks F o s s.exch) ∧
      Says c [Str.lit "Exchange", Str.lit "milli-electron-Volt"] := by
  obtain ⟨c, e, hc⟩ := flt_line (l := Str.lit "Exchange milli-electron-Volt") (ws := [Str.lit "Exchange", Str.lit "milli-electron-Volt"])
    (lineOf_spaced ⟨by decide +kernel, by decide +kernel⟩ (by simp))
  refine ⟨_, c, by rw [exchangeText, if_neg h0], ?_, hc⟩
  rw [← bonds_blocks fun p hp => h p.1 (List.mem_map_of_mem hp), List.cons_append, e, List.cons_append, List.cons_append, List.nil_append,
    flt_cons_comment (by cases o.distance <;> decide +kernel), flt_subSeparator]

theorem blocks_mem {sep : Str} {bs : List (List Str)} {l : Str} (h : l ∈ blocksText sep bs) : l = sep ∨ ∃ b ∈ bs, l ∈ b := by
  rw [blocksText, List.mem_append, List.mem_flatMap, List.mem_singleton] at h
  rcases h with ⟨b, hb, hl⟩ | h
  · rcases List.mem_cons.1 hl with h | h
    · exact Or.inl h
    · exact Or.inr ⟨b, hb, h⟩
  · exact Or.inl h

variable {F : Fmt K} {L : Lib K} {o : Opts} {x : Full K}

theorem bonds_are_blocks (h : Prints F L) (hx : Printable F L x) {b : List Str} (hb : b ∈ bondBlocks F o x.ham x.ham.exch) :
    ∃ p ∈ x.ham.exch, p.1.1 ∈ x.ham.atoms ∧ p.1.2.1 ∈ x.ham.atoms ∧ Block F o p.1 (x.ham.cell p.2) b := by
  obtain ⟨p, hp, rfl⟩ := List.mem_map.1 hb
  obtain ⟨m1, m2⟩ := hx.kept.inv.refer.exch p.1 (List.mem_map_of_mem hp)
  exact ⟨p, hp, m1, m2, bond_block h o (hx.words _ m1) (hx.words _ m2) _ _⟩

theorem exchange_sep (h : Prints F L) (hx : Printable F L x) {c : Str} (hc : Says c [Str.lit "Exchange", Str.lit "milli-electron-Volt"]) :
    ∀ l ∈ c :: blocksText subSeparator (bondBlocks F o x.ham x.ham.exch), NotSep '=' l := by
  intro l hl
  rcases List.mem_cons.1 hl with rfl | hl
  · exact (notSep_lit (d := 'E') (t := Str.lit "xchange") hc (by decide) (by decide)).2
  · rcases blocks_mem hl with rfl | ⟨b, hb, hl⟩
    · exact subSeparator_facts.2.2
    · obtain ⟨p, hp, m1, m2, hB⟩ := bonds_are_blocks h hx hb
      exact ((bond_sep h hx m1 hB).2 l hl).2

theorem exchange_groups (h : Prints F L) (hx : Printable F L x) :
    groups '-' (blocksText subSeparator (bondBlocks F o x.ham x.ham.exch)) = bondBlocks F o x.ham x.ham.exch := by
  refine groups_blocks subSeparator_facts.1 fun b hb => ?_
  obtain ⟨p, hp, m1, m2, hB⟩ := bonds_are_blocks h hx hb
  have := bond_sep h hx m1 hB
  exact ⟨this.1, fun l hl => (this.2 l hl).1.1⟩

theorem exchange_good (h : Prints F L) (hw : L.Words) (ho : o.Complete) (hx : Printable F L x) (h0 : x.ham.exch ≠ []) {c : Str}
    (hc : Says c [Str.lit "Exchange", Str.lit "milli-electron-Volt"]) :
    badExchange L (x.ham.atoms.map fun a => a.name.toList) (c :: blocksText subSeparator (bondBlocks F o x.ham x.ham.exch)) = false := by
  set B := bondBlocks F o x.ham x.ham.exch with hB
  set T := blocksText subSeparator B with hT
  have hs : (scan '-' T T.length 0).1 = false := by
    refine scan_ok (fun l hl => ?_) _ _
    rcases blocks_mem hl with rfl | ⟨b, hb, hl⟩
    · exact subSeparator_facts.2.1
    · obtain ⟨p, hp, m1, m2, hB⟩ := bonds_are_blocks h hx hb
      exact ((bond_sep h hx m1 hB).2 l hl).1.2
  have hg := groups_scan T T.length 0 (by omega) hs
  rw [List.drop_zero, exchange_groups h hx] at hg
  have hne : (scan '-' T T.length 0).2 ≠ [] := by
    intro e
    rw [e] at hg
    exact h0 (by simpa [bondBlocks] using hg.symm)
  have hany : ((scan '-' T T.length 0).2.any fun p => badBond L (x.ham.atoms.map fun a => a.name.toList) (slice T p)) = false := by
    rw [List.any_eq_false]
    intro p hp
    have : slice T p ∈ B := by
      rw [hB, ← hg]
      exact List.mem_map_of_mem hp
    obtain ⟨q, hq, m1, m2, hBl⟩ := bonds_are_blocks h hx this
    rw [bond_good h hw ho hx m1 m2 hBl]
    decide
  rw [badExchange]
  simp only [List.tail_cons, List.headD_cons, hs, hany, says_header hc (us := energyUnits) (by decide +kernel), List.isEmpty_eq_false_iff.2 hne]
  rfl

/-! ### Exchange: reading -/

variable [IsStrictOrderedRing K]

theorem given_ne (ho : o.Complete) (m : M3 K) : ∃ g gs, given F L o m = g :: gs := by
  apply List.exists_cons_of_ne_nil
  rw [given]
  rcases ho with ho | ⟨h1, -, -⟩
  · rw [ho]
    cases o.iso <;> cases o.dmi <;> cases o.symm <;> simp
  · rw [h1]
    simp

theorem readBonds_own (h : Prints F L) (ho : o.Complete) (s0 : St K) {ψ : String → Atom} {l : List (Bond × ℕ)} {s : St K}
    (ha : s.Alloc) (hp : ∀ p ∈ l, Plain p.1.1.name.toList ∧ Plain p.1.2.1.name.toList)
    (hg : ∀ p ∈ l, s.getAtom p.1.1.name = .ok (ψ p.1.1.name) ∧ s.getAtom p.1.2.1.name = .ok (ψ p.1.2.1.name))
    (hn : (l.map fun p => (ψ p.1.1.name, ψ p.1.2.1.name, p.1.2.2)).Nodup) :
    ∃ t, readBonds L (bondBlocks F o s0 l) s = .ok t ∧ t.Alloc ∧ (t.dc, t.sn, t.ef, t.osf) = (s.dc, s.sn, s.ef, s.osf) ∧
      t.atoms = s.atoms ∧ (∀ a, t.valO a = s.valO a) ∧
      (∀ p ∈ l, ∃ J, Combined (given F L o (s0.cell p.2)) J ∧ t.valE (ψ p.1.1.name, ψ p.1.2.1.name, p.1.2.2) = some J) ∧
      (∀ c, t.valE c ≠ none → s.valE c ≠ none ∨ (∃ p ∈ l, c = (ψ p.1.1.name, ψ p.1.2.1.name, p.1.2.2)) ∨
        (s.dc = some true ∧ ∃ p ∈ l, c = Bond.mirror (ψ p.1.1.name, ψ p.1.2.1.name, p.1.2.2))) ∧
      ∀ c, s.valE c ≠ none → (c ∉ l.map fun p => (ψ p.1.1.name, ψ p.1.2.1.name, p.1.2.2)) → t.valE c = s.valE c := by
  induction l generalizing s with
  | nil =>
    exact ⟨s, rfl, ha, rfl, rfl, fun _ => rfl, by simp, fun c hc => Or.inl hc, fun _ _ _ => rfl⟩
  | cons p l ih =>
    obtain ⟨p1, p2⟩ := hp p (by simp)
    obtain ⟨g1, g2⟩ := hg p (by simp)
    rw [List.map_cons, List.nodup_cons] at hn
    obtain ⟨c, ls, hC, t0, hgv⟩ := bond_gives h (bond_block h o p1 p2 (s0.dist p.1) (s0.cell p.2))
    obtain ⟨g, gs, hge⟩ := given_ne (F := F) (L := L) ho (s0.cell p.2)
    rw [hge] at hgv
    obtain ⟨u, J, J₁, r1, ua, hJ, -, hr⟩ := readBond_read ha (h := c) t0.split (h.int p.1.2.2.1).2 (h.int p.1.2.2.2.1).2
      (h.int p.1.2.2.2.2).2 (by rw [String.ofList_toList]; exact g1) (by rw [String.ofList_toList]; exact g2) hgv
    have hdc : u.dc = s.dc := congrArg Prod.fst hr.settings
    set k : Bond := (ψ p.1.1.name, ψ p.1.2.1.name, p.1.2.2) with hk
    replace hr : BondRead s u k J J₁ := hr
    obtain ⟨t, r2, ta, ts, tat, tO, tv, tx, ty⟩ := ih ua (fun q hq => hp q (by simp [hq])) (fun q hq => by
      rw [getAtom_atoms hr.atoms, getAtom_atoms hr.atoms]
      exact hg q (by simp [hq])) hn.2
    refine ⟨t, ?_, ta, ts.trans hr.settings, tat.trans hr.atoms, fun a => (tO a).trans (hr.onSite a), ?_, ?_, ?_⟩
    · rw [bondBlocks, List.map_cons, hC, readBonds, r1]
      exact r2
    · intro q hq
      rcases List.mem_cons.1 hq with rfl | hq
      · refine ⟨J, by rw [hge]; exact hJ, ?_⟩
        rw [ty _ (by rw [hr.value]; simp) hn.1]
        exact hr.value
      · exact tv q hq
    · intro c' hc'
      rcases tx c' hc' with h' | ⟨q, hq, e⟩ | ⟨hd, q, hq, e⟩
      · by_cases e1 : c' = k
        · exact Or.inr (Or.inl ⟨p, by simp, e1⟩)
        by_cases e2 : c' = k.mirror
        · subst e2
          rw [hr.mirror e1] at h'
          by_cases hm : s.dc = some true ∧ s.valE k.mirror = none
          · exact Or.inr (Or.inr ⟨hm.1, p, by simp, rfl⟩)
          · rw [if_neg hm] at h'
            exact Or.inl h'
        · rw [hr.other c' e1 e2] at h'
          exact Or.inl h'
      · exact Or.inr (Or.inl ⟨q, by simp [hq], e⟩)
      · exact Or.inr (Or.inr ⟨hdc ▸ hd, q, by simp [hq], e⟩)
    · intro c' hc' hcl
      rw [List.map_cons, List.mem_cons, not_or] at hcl
      have : u.valE c' = s.valE c' := by
        by_cases e2 : c' = k.mirror
        · subst e2
          rw [hr.mirror hcl.1, if_neg fun hm => hc' hm.2]
        · exact hr.other c' hcl.1 e2
      rw [ty c' (by rw [this]; exact hc') hcl.2, this]

theorem exchangeFactor_own [CharZero K] {c : Str} (hc : Says c [Str.lit "Exchange", Str.lit "milli-electron-Volt"]) :
    ∃ f, exchangeFactor (K := K) (energyName c) = .ok f := by
  have e : energyName c = (Str.lit "milli-electron-Volt").lower := by
    rw [energyName, head_lower hc]; rfl
  have h1 : (Str.lit "milli-electron-Volt").lower.startsWith ['r'] = false := by decide +kernel
  have h2 : (Str.lit "milli-electron-Volt").lower.startsWith ['j'] = false := by decide +kernel
  have h3 : (Str.lit "milli-electron-Volt").lower.startsWith ['k'] = false := by decide +kernel
  have h4 : (Str.lit "milli-electron-Volt").lower.startsWith ['e'] = false := by decide +kernel
  have h5 : (Str.lit "milli-electron-Volt").lower.startsWith ['m'] = true := by decide +kernel
  rw [e, exchangeFactor, h1, h2, h3, h4, h5]
  exact ⟨_, rfl⟩

/-! ### On-site -/

/-- The six numbers of an on-site matrix. -/
def six (m : M3 K) : List K := [m 0 0, m 1 1, m 2 2, m 0 1, m 0 2, m 1 2]

/-- The words of the blocks of on-site parameters. -/
def siteWords (F : Fmt K) (s : St K) (l : List (Atom × ℕ)) : List (List Str) :=
  l.flatMap fun p => [[p.1.name.toList], row4 F (six (s.cell p.2)), [subSeparator]]

theorem subSeparator_line : LineOf subSeparator [subSeparator] := by
  refine lineOf_spaced (spaced_plain ⟨by decide +kernel, ?_, ?_⟩) (by simp)
  · intro c hc
    rw [List.eq_of_mem_replicate hc]
    decide
  · intro h
    have := List.eq_of_mem_replicate h
    revert this
    decide

theorem sites_lines (h : Prints F L) (s : St K) {l : List (Atom × ℕ)} (hp : ∀ p ∈ l, Plain p.1.name.toList) :
    List.Forall₂ LineOf (l.flatMap fun p => siteText F p.1 (s.cell p.2)) (siteWords F s l) := by
  induction l with
  | nil => exact .nil
  | cons p l ih =>
    have ih := ih fun q hq => hp q (by simp [hq])
    rw [siteWords, List.flatMap_cons, List.flatMap_cons]
    refine List.rel_append ?_ ih
    exact .cons (lineOf_spaced (spaced_plain (hp p (by simp))) (by simp)) (.cons (lineOf_spaced (spaced_numbers h (six _)) (by simp [row4, six]))
      (.cons subSeparator_line .nil))

theorem onSite_text (h : Prints F L) (hx : Printable F L x) (h0 : x.ham.onSite ≠ []) :
    ∃ ls, onSiteText F x.ham = ls ++ [separator] ∧
      List.Forall₂ Says (flt ls) ([Str.lit "On-site", Str.lit "milli-electron-Volt"] :: [subSeparator] :: siteWords F x.ham x.ham.onSite) := by
  refine ⟨_, by rw [onSiteText, if_neg h0], ?_⟩
  refine flt_lines (.cons (lineOf_spaced ⟨by decide +kernel, by decide +kernel⟩ (by simp)) (.cons subSeparator_line ?_))
  exact sites_lines h x.ham fun p hp => hx.words _ (hx.kept.inv.refer.site p.1 (List.mem_map_of_mem hp))

theorem says_sub {c : Str} (h : Says c [subSeparator]) : c = subSeparator := Str.split_single h.clean h.split

theorem siteLoop_sub (names : List Str) (C : List Str) : siteLoop L names (subSeparator :: C) = siteLoop L names C := by
  conv_lhs => rw [siteLoop.eq_def]
  simp only [subSeparator_facts.1, subSeparator_facts.2.1, Bool.true_or, if_true, Bool.false_or]

theorem siteLoop_name {names : List Str} {l v : Str} {C : List Str} (n : NotSep '-' l) : siteLoop L names (l :: v :: C) =
    (decide (l.split.length ≠ 1) || badName L l.first || !Str.mem l.first names || badBlock L [v] [[6]] || (siteLoop L names C).1,
      (siteLoop L names C).2 + 1) := by
  conv_lhs => rw [siteLoop.eq_def]
  simp only [n.1, n.2, Bool.or_false, Bool.false_eq_true, if_false]

theorem siteLines_sub (f : K) (C : List Str) (s : St K) : siteLines L f (subSeparator :: C) s = siteLines L f C s := by
  conv_lhs => rw [siteLines.eq_def]
  simp only [subSeparator_facts.1, if_true]

theorem sites_good (h : Prints F L) (hw : L.Words) (hx : Printable F L x) {l : List (Atom × ℕ)} (hl : ∀ p ∈ l, p.1 ∈ x.ham.atoms)
    {C : List Str} (hC : List.Forall₂ Says C (siteWords F x.ham l)) :
    siteLoop L (x.ham.atoms.map fun a => a.name.toList) C = (false, l.length) ∧ ∀ c ∈ C, NotSep '=' c := by
  induction l generalizing C with
  | nil => cases hC; exact ⟨rfl, by simp⟩
  | cons p l ih =>
    cases hC with
    | cons t0 hC =>
    cases hC with
    | cons t1 hC =>
    cases hC with
    | cons t2 hC =>
    rename_i c0 c1 c2 C
    have hm := hl p (by simp)
    obtain ⟨i1, i2⟩ := ih (fun q hq => hl q (by simp [hq])) hC
    have n0 := notSep_name h hx hm t0
    have n1 := notSep_word h t1
    have e2 := says_sub t2
    subst e2
    refine ⟨?_, ?_⟩
    · have hb : badBlock L [c1] [[6]] = false := by
        rw [badBlock, badRows, Str.split_lower, t1.split, numbers_ok h hw (six _) (as := [6]) rfl]
        rfl
      have hf : c0.first = p.1.name.toList := by rw [Str.first, t0.split]; rfl
      have hmem : Str.mem p.1.name.toList (x.ham.atoms.map fun a => a.name.toList) = true := Str.mem_iff.2 (List.mem_map_of_mem hm)
      rw [siteLoop_name n0.1, siteLoop_sub, i1, hb, hf, hmem, name_good hx hm, t0.split]
      rfl
    · intro c hc
      simp only [List.mem_cons] at hc
      rcases hc with rfl | rfl | rfl | hc
      · exact n0.2
      · exact n1.2
      · exact subSeparator_facts.2.2
      · exact i2 c hc

theorem onSite_good (h : Prints F L) (hw : L.Words) (hx : Printable F L x) (h0 : x.ham.onSite ≠ []) {C : List Str}
    (hC : List.Forall₂ Says C ([Str.lit "On-site", Str.lit "milli-electron-Volt"] :: [subSeparator] :: siteWords F x.ham x.ham.onSite)) :
    badOnSite L (x.ham.atoms.map fun a => a.name.toList) C = false ∧ ∀ c ∈ C, NotSep '=' c := by
  cases hC with
  | cons t0 hC =>
  cases hC with
  | cons t1 hC =>
  rename_i c0 c1 C
  have e1 := says_sub t1
  subst e1
  obtain ⟨i1, i2⟩ := sites_good h hw hx (fun p hp => hx.kept.inv.refer.site p.1 (List.mem_map_of_mem hp)) hC
  refine ⟨?_, ?_⟩
  · rw [badOnSite]
    simp only [List.tail_cons, List.headD_cons, says_header t0 (us := energyUnits) (by decide +kernel)]
    simp only [siteLoop_sub, i1]
    simpa using h0
  · intro c hc
    simp only [List.mem_cons] at hc
    rcases hc with rfl | rfl | hc
    · exact (notSep_lit (d := 'O') (t := Str.lit "n-site") t0 (by decide) (by decide)).2
    · exact subSeparator_facts.2.2
    · exact i2 c hc

/-- A rounded symmetric matrix. -/
noncomputable def rdO (F : Fmt K) (L : Lib K) (m : M3 K) : M3 K :=
  !![rd F L 4 (m 0 0), rd F L 4 (m 0 1), rd F L 4 (m 0 2); rd F L 4 (m 0 1), rd F L 4 (m 1 1), rd F L 4 (m 1 2);
    rd F L 4 (m 0 2), rd F L 4 (m 1 2), rd F L 4 (m 2 2)]

theorem rdO_close (h : Prints F L) {m : M3 K} (hm : m.transpose = m) (i j : Fin 3) : Close 1 4 (rdO F L m i j) (m i j) := by
  have hs : ∀ a b, m a b = m b a := fun a b => by
    conv_lhs => rw [← hm]
    rfl
  fin_cases i <;> fin_cases j
  · exact h.close 4 _
  · exact h.close 4 _
  · exact h.close 4 _
  · rw [hs]; exact h.close 4 _
  · exact h.close 4 _
  · exact h.close 4 _
  · rw [hs]; exact h.close 4 _
  · rw [hs]; exact h.close 4 _
  · exact h.close 4 _

theorem siteMatrix_own (h : Prints F L) (m : M3 K) : siteMatrix L 1 (row4 F (six m)) = .ok (rdO F L m) := by
  simp only [siteMatrix, row4, six, List.map_cons, List.map_nil, floats, parse, h.float]
  refine congrArg Except.ok ?_
  ext i j
  fin_cases i <;> fin_cases j <;> simp [rdO]

theorem addOnSite_read {s : St K} (ha : s.Alloc) {k : Atom} (hk : k ∈ s.atoms) (m : M3 K) :
    ∃ t, (s.addOnSite (.atom k) (.fresh m)).toExcept = .ok t ∧ H5.Frame s t ∧ t.Alloc ∧ (∀ a, t.valE a = s.valE a) ∧
      ∀ c, t.valO c = if c = k then some m else s.valO c := by
  refine ⟨{ (s.alloc m).1 with onSite := s.onSite.set k s.next }, ?_, ⟨rfl, rfl, rfl, rfl, rfl, rfl⟩, ⟨?_, ?_⟩, ?_, ?_⟩
  · simp only [St.addOnSite, St.findOrAdd, if_pos hk, St.resolve]
    rfl
  · exact (H5.alloc_alloc ha _).exch
  · intro c r hr
    simp only [PyDict.get?_set] at hr
    split at hr
    · cases hr; exact Nat.lt_succ_self _
    · exact Nat.lt_succ_of_lt (ha.site c r hr)
  · exact fun a => H5.alloc_valE ha _ a
  · intro c
    by_cases hc : c = k
    · subst hc
      simp [St.valO, St.alloc]
    · rw [if_neg hc, ← H5.alloc_valO ha m c]
      simp only [St.valO, PyDict.get?_set, if_neg (fun e : k = c => hc e.symm)]
      rfl

theorem readSites_own (h : Prints F L) (s0 : St K) {ψ : String → Atom} {l : List (Atom × ℕ)} {s : St K} (ha : s.Alloc)
    (hsep : ∀ p ∈ l, ∀ c, Says c [p.1.name.toList] → NotSep '-' c)
    (hg : ∀ p ∈ l, s.getAtom p.1.name = .ok (ψ p.1.name) ∧ ψ p.1.name ∈ s.atoms)
    (hn : (l.map fun p => ψ p.1.name).Nodup) {C : List Str} (hC : List.Forall₂ Says C (siteWords F s0 l)) :
    ∃ t, siteLines L 1 C s = .ok t ∧ H5.Frame s t ∧ (∀ c, t.valE c = s.valE c) ∧
      (∀ p ∈ l, t.valO (ψ p.1.name) = some (rdO F L (s0.cell p.2))) ∧
      ∀ c, (c ∉ l.map fun p => ψ p.1.name) → t.valO c = s.valO c := by
  induction l generalizing s C with
  | nil =>
    cases hC
    exact ⟨s, rfl, H5.Frame.rfl', fun _ => rfl, by simp, fun _ _ => rfl⟩
  | cons p l ih =>
    cases hC with
    | cons t0 hC =>
    cases hC with
    | cons t1 hC =>
    cases hC with
    | cons t2 hC =>
    rename_i c0 c1 c2 C
    have e2 := says_sub t2
    subst e2
    obtain ⟨g1, g2⟩ := hg p (by simp)
    rw [List.map_cons, List.nodup_cons] at hn
    obtain ⟨u, r1, f1, ua, uv, uO⟩ := addOnSite_read ha g2 (rdO F L (s0.cell p.2))
    obtain ⟨t, r2, f2, tv, tw, ty⟩ := ih ua (fun q hq => hsep q (by simp [hq])) (fun q hq => by
      rw [getAtom_atoms f1.atoms, f1.atoms]
      exact hg q (by simp [hq])) hn.2 hC
    refine ⟨t, ?_, f1.trans f2, fun c => (tv c).trans (uv c), ?_, ?_⟩
    · have e0 : c0.strip = p.1.name.toList := by
        have : c0 = p.1.name.toList := Str.split_single t0.clean t0.split
        rw [← this]
        exact Str.strip_clean t0.clean.1
      rw [siteLines.eq_def]
      simp only [(hsep p (by simp) c0 t0).1, e0, String.ofList_toList, g1, t1.split, siteMatrix_own h, r1, Except.bind, Bool.false_eq_true, if_false, siteLines_sub]
      exact r2
    · intro q hq
      rcases List.mem_cons.1 hq with rfl | hq
      · rw [ty _ hn.1, uO, if_pos rfl]
      · exact tw q hq
    · intro c hc
      rw [List.map_cons, List.mem_cons, not_or] at hc
      rw [ty c hc.2, uO, if_neg hc.1]

theorem onSiteFactor_own [CharZero K] {c : Str} (hc : Says c [Str.lit "On-site", Str.lit "milli-electron-Volt"]) :
    onSiteFactor (K := K) (energyName c) = .ok 1 := by
  have e : energyName c = (Str.lit "milli-electron-Volt").lower := by
    rw [energyName, head_lower hc]; rfl
  have h1 : (Str.lit "milli-electron-Volt").lower.startsWith ['r'] = false := by decide +kernel
  have h2 : (Str.lit "milli-electron-Volt").lower.startsWith ['j'] = false := by decide +kernel
  have h3 : (Str.lit "milli-electron-Volt").lower.startsWith ['k'] = false := by decide +kernel
  have h4 : (Str.lit "milli-electron-Volt").lower.startsWith ['e'] = false := by decide +kernel
  have h5 : (Str.lit "milli-electron-Volt").lower.startsWith ['m'] = true := by decide +kernel
  rw [e, onSiteFactor, h1, h2, h3, h4, h5]
  have : (Txt.energyUnit : K) ≠ 0 := by
    simp [Txt.energyUnit, Txt.electronVolt]
  simp only [Bool.false_eq_true, if_false, if_true]
  rw [← Txt.energyUnit, div_self this]

end

end Txt
end Magnopy
