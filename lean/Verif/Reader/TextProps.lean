import Verif.Reader.Text
import Mathlib.Tactic.Ring
import Mathlib.Tactic.Linarith
import Mathlib.Data.List.Basic
import Mathlib.Data.List.Induction
import Mathlib.Algebra.Order.Field.Rat

/-!
# What the text of a circuit simulation is read as

Properties C272-C276.
-/

set_option linter.unusedSimpArgs false
set_option linter.unusedVariables false
set_option linter.unusedSectionVars false

namespace Verif.Reader

/-! ## Specification -/

/-- The characters of a text that are neither quotes nor between them. -/
def unquoted : Bool → Text → Text
  | _, [] => []
  | q, c :: r => if c = '"' then unquoted (!q) r else if q then unquoted q r else c :: unquoted q r

/-- Nothing is open after `pre`: its quotes pair up, and no parenthesis outside of them is left without the one that closes it. -/
def Outside (pre : Text) : Prop :=
  pre.count '"' % 2 = 0 ∧ ∀ suf, suf <:+ unquoted false pre → suf.count '(' ≤ suf.count ')'

/-- Fields one after the other, each followed by the separator. -/
def joined (sep : Char) (fields : List Text) : Text := (fields.map (· ++ [sep])).flatten

/-! ## Lemmas on the scan -/

def Scan.next (s : Scan) (c : Char) : Scan := if c = '"' then { s with quoted := !s.quoted } else s.paren c

def scan (pre : Text) : Scan := pre.foldl Scan.next ⟨false, 0⟩

theorem scan_snoc (pre : Text) (c : Char) : scan (pre ++ [c]) = (scan pre).next c := by simp [scan]

theorem scan_quoted (pre : Text) : (scan pre).quoted = decide (pre.count '"' % 2 = 1) := by
  induction pre using List.reverseRecOn with
  | nil => rfl
  | append_singleton l c ih =>
    rw [scan_snoc]
    unfold Scan.next
    by_cases hc : c = '"'
    · subst hc
      simp only [if_true, ih, List.count_append, List.count_singleton_self]
      rcases Nat.mod_two_eq_zero_or_one (l.count '"') with h | h
      · have : (l.count '"' + 1) % 2 = 1 := by omega
        simp [h, this]
      · have : (l.count '"' + 1) % 2 = 0 := by omega
        simp [h, this]
    · have hp : ((scan l).paren c).quoted = (scan l).quoted := by
        unfold Scan.paren; split_ifs <;> rfl
      have hz : List.count '"' [c] = 0 := by
        rw [List.count_eq_zero]; simpa using fun h => hc h.symm
      rw [if_neg hc, hp, ih, List.count_append, hz, Nat.add_zero]

theorem unquoted_snoc (pre : Text) (c : Char) : ∀ q, unquoted q (pre ++ [c]) =
    unquoted q pre ++ (if c = '"' then [] else if (pre.count '"' % 2 = 1) = (q = false) then [] else [c]) := by
  induction pre with
  | nil =>
    intro q
    by_cases hc : c = '"'
    · simp [unquoted, hc]
    · cases q <;> simp [unquoted, hc]
  | cons d r ih =>
    intro q
    by_cases hd : d = '"'
    · subst hd
      simp only [List.cons_append, unquoted, if_true, ih, List.count_cons_self]
      congr 1
      by_cases hc : c = '"'
      · simp [hc]
      · rw [if_neg hc, if_neg hc]
        have : (List.count '"' r % 2 = 1) = ((!q) = false) ↔ ((List.count '"' r + 1) % 2 = 1) = (q = false) := by
          rcases Nat.mod_two_eq_zero_or_one (r.count '"') with h | h
          · have : (r.count '"' + 1) % 2 = 1 := by omega
            cases q <;> simp [h, this]
          · have : (r.count '"' + 1) % 2 = 0 := by omega
            cases q <;> simp [h, this]
        simp only [this]
    · have hz : List.count '"' (d :: r) = List.count '"' r := by
        rw [List.count_cons_of_ne]; exact fun h => hd h
      cases q <;> simp [unquoted, hd, ih, hz]

/-- The depth is the most parentheses a tail leaves open. -/
theorem scan_depth (pre : Text) : ∀ n, (scan pre).depth ≤ n ↔
    ∀ suf, suf <:+ unquoted false pre → suf.count '(' ≤ suf.count ')' + n := by
  induction pre using List.reverseRecOn with
  | nil =>
    intro n
    refine iff_of_true (Nat.zero_le _) ?_
    intro suf h
    rw [show unquoted false [] = [] from rfl, List.suffix_nil] at h
    simp [h]
  | append_singleton l c ih =>
    intro n
    rw [scan_snoc, unquoted_snoc]
    have hq := scan_quoted l
    unfold Scan.next
    by_cases hc : c = '"'
    · simp only [hc, if_true, List.append_nil]
      exact ih n
    · rw [if_neg hc, if_neg hc]
      by_cases ho : List.count '"' l % 2 = 1
      · have hqt : (scan l).quoted = true := by rw [hq]; simpa using ho
        rw [Scan.paren, if_pos hqt, if_pos (by simpa using ho), List.append_nil]
        exact ih n
      · have hqf : (scan l).quoted = false := by rw [hq]; simpa using ho
        rw [Scan.paren, if_neg (show ¬ (scan l).quoted = true by simp [hqf]),
          if_neg (show ¬ (List.count '"' l % 2 = 1) = (false = false) by simpa using ho)]
        have hsuf : ∀ P : Text → Prop, (∀ suf, suf <:+ unquoted false l ++ [c] → P suf) ↔
            P [] ∧ ∀ suf, suf <:+ unquoted false l → P (suf ++ [c]) := by
          intro P
          constructor
          · intro h
            exact ⟨h [] (List.nil_suffix), fun suf hs => h _ ((List.suffix_append_inj_of_length_eq rfl).mpr ⟨hs, rfl⟩)⟩
          · rintro ⟨h1, h2⟩ suf hs
            rcases suf.eq_nil_or_concat with rfl | ⟨t, d, rfl⟩
            · exact h1
            · obtain ⟨u, hu⟩ := hs
              rw [List.concat_eq_append, ← List.append_assoc] at hu
              obtain ⟨h3, h4⟩ := List.append_inj' hu rfl
              rw [List.concat_eq_append, h4]
              exact h2 t ⟨u, h3⟩
        rw [hsuf fun suf => suf.count '(' ≤ suf.count ')' + n]
        simp only [List.count_nil, List.count_append]
        by_cases h1 : c = '('
        · subst h1
          have e1 : List.count '(' ['('] = 1 := by decide
          have e2 : List.count ')' ['('] = 0 := by decide
          rw [if_pos rfl, e1, e2]
          constructor
          · intro h
            refine ⟨Nat.zero_le _, fun suf hs => ?_⟩
            have h : (scan l).depth + 1 ≤ n := h
            have := (ih (n - 1)).mp (by omega) suf hs
            omega
          · rintro ⟨_, h⟩
            show (scan l).depth + 1 ≤ n
            have h0 := h [] List.nil_suffix
            simp only [List.count_nil] at h0
            have := (ih (n - 1)).mpr fun suf hs => by have := h suf hs; omega
            omega
        · by_cases h2 : c = ')'
          · subst h2
            have e1 : List.count '(' [')'] = 0 := by decide
            have e2 : List.count ')' [')'] = 1 := by decide
            rw [if_neg h1, e1, e2]
            have hd : (if ')' = ')' ∧ (scan l).depth > 0 then { scan l with depth := (scan l).depth - 1 } else scan l).depth =
                (scan l).depth - 1 := by
              split_ifs with h
              · rfl
              · have : ¬ (scan l).depth > 0 := fun hp => h ⟨rfl, hp⟩
                omega
            rw [hd]
            have : (scan l).depth - 1 ≤ n ↔ (scan l).depth ≤ n + 1 := by omega
            rw [this, ih]
            constructor
            · intro h; exact ⟨Nat.zero_le _, fun suf hs => by have := h suf hs; omega⟩
            · rintro ⟨_, h⟩ suf hs; have := h suf hs; omega
          · have e1 : List.count '(' [c] = 0 := by
              rw [List.count_eq_zero]; simpa using fun h => h1 h.symm
            have e2 : List.count ')' [c] = 0 := by
              rw [List.count_eq_zero]; simpa using fun h => h2 h.symm
            rw [if_neg h1, if_neg (fun h => h2 h.1), e1, e2, ih]
            constructor
            · intro h; exact ⟨Nat.zero_le _, fun suf hs => by have := h suf hs; omega⟩
            · rintro ⟨_, h⟩ suf hs; have := h suf hs; omega

theorem outside_iff (pre : Text) : Outside pre ↔ (scan pre).quoted = false ∧ (scan pre).depth = 0 := by
  unfold Outside
  have h0 := scan_depth pre 0
  rw [Nat.le_zero] at h0
  rw [h0, scan_quoted]
  have : decide (pre.count '"' % 2 = 1) = false ↔ pre.count '"' % 2 = 0 := by
    rw [decide_eq_false_iff_not]; omega
  rw [this]
  rfl

/-- A separator is none of the characters that open and close. -/
def Plain (sep : Char) : Prop := sep ≠ '"' ∧ sep ≠ '(' ∧ sep ≠ ')'

theorem paren_plain {sep : Char} (h : Plain sep) (s : Scan) : s.paren sep = s := by
  unfold Scan.paren
  split_ifs with h1 h2 h3
  · rfl
  · exact absurd h2 h.2.1
  · exact absurd h3.1 h.2.2
  · rfl

theorem separators_plain {sep : Char} (h : sep ∈ separators) : Plain sep := by
  simp only [separators, List.mem_cons, List.not_mem_nil, or_false] at h
  rcases h with rfl | rfl | rfl | rfl <;> refine ⟨by decide, by decide, by decide⟩

theorem splitLoop_ne_nil (sep : Char) : ∀ (rest : Text) (s : Scan) (cur : Text), splitLoop sep s cur rest ≠ []
  | [], s, cur => by simp [splitLoop]
  | c :: rest, s, cur => by
    unfold splitLoop
    split_ifs
    · exact splitLoop_ne_nil sep rest _ _
    · simp
    · exact splitLoop_ne_nil sep rest _ _

theorem splitLoop_spec {sep : Char} (hsep : Plain sep) : ∀ (rest pre cur : Text),
    (∀ x y, cur = x ++ sep :: y → ¬ Outside (pre ++ x)) →
    List.intercalate [sep] (splitLoop sep (scan (pre ++ cur)) cur rest) = cur ++ rest ∧
    ∀ a f b, splitLoop sep (scan (pre ++ cur)) cur rest = a ++ f :: b →
      (b ≠ [] → Outside (pre ++ joined sep a ++ f)) ∧
        ∀ x y, f = x ++ sep :: y → ¬ Outside (pre ++ joined sep a ++ x)
  | [], pre, cur, H => by
    refine ⟨by simp [splitLoop], ?_⟩
    intro a f b h
    rw [splitLoop] at h
    rcases a with _ | ⟨a, as⟩
    · simp only [List.nil_append, List.cons.injEq] at h
      obtain ⟨rfl, rfl⟩ := h
      refine ⟨fun h => absurd rfl h, fun x y hf => ?_⟩
      simpa [joined] using H x y hf
    · simp at h
  | c :: rest, pre, cur, H => by
    rw [splitLoop]
    have hnext : ∀ s : Scan, s.next c = if c = '"' then { s with quoted := !s.quoted } else s.paren c := fun s => rfl
    by_cases hc : c = '"'
    · rw [if_pos hc]
      have e : ({ scan (pre ++ cur) with quoted := !(scan (pre ++ cur)).quoted } : Scan) = scan (pre ++ (cur ++ [c])) := by
        rw [← List.append_assoc, scan_snoc, hnext, if_pos hc]
      rw [e]
      have H' : ∀ x y, cur ++ [c] = x ++ sep :: y → ¬ Outside (pre ++ x) := by
        intro x y hxy
        rcases y.eq_nil_or_concat with rfl | ⟨z, d, rfl⟩
        · have := (List.append_inj' hxy rfl).2
          simp only [List.cons.injEq, and_true] at this
          exact absurd (this.symm.trans hc) hsep.1
        · rw [List.concat_eq_append, ← List.cons_append, ← List.append_assoc] at hxy
          exact H x z (List.append_inj' hxy rfl).1
      have := splitLoop_spec hsep rest pre (cur ++ [c]) H'
      refine ⟨by rw [this.1]; simp, this.2⟩
    · rw [if_neg hc]
      have hn : scan (pre ++ (cur ++ [c])) = (scan (pre ++ cur)).paren c := by
        rw [← List.append_assoc, scan_snoc, hnext, if_neg hc]
      by_cases hs : c = sep ∧ ((scan (pre ++ cur)).paren c).quoted = false ∧ ((scan (pre ++ cur)).paren c).depth = 0
      · rw [if_pos hs]
        obtain ⟨rfl, hq, hd⟩ := hs
        rw [paren_plain hsep] at hq hd hn
        rw [paren_plain hsep]
        have hout : Outside (pre ++ cur) := (outside_iff _).mpr ⟨hq, hd⟩
        have ih := splitLoop_spec hsep rest (pre ++ (cur ++ [c])) [] (by intro x y h; simp at h)
        rw [List.append_nil, hn] at ih
        constructor
        · have hne := splitLoop_ne_nil c rest (scan (pre ++ cur)) []
          obtain ⟨d, ds, hd'⟩ := List.exists_cons_of_ne_nil hne
          have ih1 := ih.1
          rw [hd'] at ih1 ⊢
          rw [List.intercalate_cons_cons, ih1]
          simp
        · intro a f b h
          rcases a with _ | ⟨a, as⟩
          · simp only [List.nil_append, List.cons.injEq] at h
            obtain ⟨rfl, rfl⟩ := h
            refine ⟨fun _ => by simpa [joined] using hout, fun x y hf => by simpa [joined] using H x y hf⟩
          · simp only [List.cons_append, List.cons.injEq] at h
            obtain ⟨rfl, h⟩ := h
            have := ih.2 as f b h
            have e : ∀ t, pre ++ joined c (cur :: as) ++ t = pre ++ (cur ++ [c]) ++ joined c as ++ t := by
              intro t; simp [joined]
            refine ⟨fun hb => by rw [e]; exact this.1 hb, fun x y hf => by rw [e]; exact this.2 x y hf⟩
      · rw [if_neg hs, ← hn]
        have H' : ∀ x y, cur ++ [c] = x ++ sep :: y → ¬ Outside (pre ++ x) := by
          intro x y hxy
          rcases y.eq_nil_or_concat with rfl | ⟨z, d, rfl⟩
          · have h1 := (List.append_inj' hxy rfl)
            simp only [List.cons.injEq, and_true] at h1
            obtain ⟨rfl, h2⟩ := h1
            subst h2
            rw [outside_iff]
            intro ho
            rw [paren_plain hsep] at hs
            exact hs ⟨rfl, ho⟩
          · rw [List.concat_eq_append, ← List.cons_append, ← List.append_assoc] at hxy
            exact H x z (List.append_inj' hxy rfl).1
        have := splitLoop_spec hsep rest pre (cur ++ [c]) H'
        refine ⟨by rw [this.1]; simp, this.2⟩

theorem mem_intersperse_of_mem {α : Type} {s x : α} : ∀ {l : List α}, x ∈ l → x ∈ l.intersperse s
  | [], h => by simp at h
  | [a], h => by simpa using h
  | a :: b :: l, h => by
    rw [List.intersperse_cons_cons]
    rcases List.mem_cons.mp h with rfl | h
    · simp
    · have := mem_intersperse_of_mem (s := s) h
      simp [this]

/-! ## C272: the fields of a line -/

/-- **C272.** Splitting a line loses nothing: its fields with the separator between them are the line. -/
theorem fields_joined {sep : Char} (h : Plain sep) (line : Text) : List.intercalate [sep] (splitFields line sep) = line := by
  have := (splitLoop_spec h line [] [] (by intro x y h; simp at h)).1
  simpa [splitFields, scan] using this

/-- **C272.** A line is cut only where no quote and no parenthesis is open, and everywhere a separator is met there: the text before the end of
a field other than the last has nothing open, and the text before a separator kept within a field has something open. -/
theorem cut_outside {sep : Char} (h : Plain sep) (line : Text) (a : List Text) (f : Text) (b : List Text)
    (hs : splitFields line sep = a ++ f :: b) :
    (b ≠ [] → Outside (joined sep a ++ f)) ∧ ∀ x y, f = x ++ sep :: y → ¬ Outside (joined sep a ++ x) := by
  have := (splitLoop_spec h line [] [] (by intro x y h; simp at h)).2 a f b (by simpa [splitFields, scan] using hs)
  simpa using this

/-- **C272.** Where the line has neither quotes nor parentheses, every separator cuts: no field holds one. -/
theorem plain_lines {sep : Char} (h : Plain sep) (line : Text) (hl : ∀ c ∈ line, c ≠ '"' ∧ c ≠ '(') :
    ∀ f ∈ splitFields line sep, sep ∉ f := by
  intro f hf hsep
  obtain ⟨a, b, hab⟩ := List.append_of_mem hf
  obtain ⟨x, y, hxy⟩ := List.append_of_mem hsep
  refine (cut_outside h line a f b hab).2 x y hxy ?_
  have hj := fields_joined h line
  have hpre : ∀ c ∈ joined sep a ++ x, c ∈ line ∨ c = sep := by
    intro c hc
    have hmem : ∀ g ∈ splitFields line sep, ∀ c ∈ g, c ∈ line := by
      intro g hg c hc
      rw [← hj, List.intercalate]
      refine List.mem_flatten.mpr ⟨g, ?_, hc⟩
      exact mem_intersperse_of_mem hg
    rcases List.mem_append.mp hc with hc | hc
    · rw [joined, List.mem_flatten] at hc
      obtain ⟨t, ht, hct⟩ := hc
      obtain ⟨g, hg, rfl⟩ := List.mem_map.mp ht
      rcases List.mem_append.mp hct with h1 | h1
      · exact .inl (hmem g (by rw [hab]; exact List.mem_append_left _ hg) c h1)
      · exact .inr (by simpa using h1)
    · exact .inl (hmem f (by rw [hab]; simp) c (by rw [hxy]; simp [hc]))
  have hno : ∀ c ∈ joined sep a ++ x, c ≠ '"' ∧ c ≠ '(' := by
    intro c hc
    rcases hpre c hc with h1 | rfl
    · exact hl c h1
    · exact ⟨h.1, h.2.1⟩
  generalize joined sep a ++ x = pre at hno
  have hq : pre.count '"' = 0 := List.count_eq_zero.mpr fun hm => (hno _ hm).1 rfl
  have hu : ∀ (t : Text), (∀ c ∈ t, c ≠ '"' ∧ c ≠ '(') → unquoted false t = t := by
    intro t
    induction t with
    | nil => intro _; rfl
    | cons c r ih =>
      intro ht
      rw [unquoted, if_neg (ht c (by simp)).1]
      simp only [Bool.false_eq_true, if_false]
      rw [ih fun d hd => ht d (by simp [hd])]
  refine ⟨by rw [hq], fun suf hs => ?_⟩
  rw [hu _ hno] at hs
  have : suf.count '(' = 0 := List.count_eq_zero.mpr fun hm => (hno _ (hs.subset hm)).2 rfl
  omega

/-- Case of `fields_joined` and `cut_outside`: a differential probe and a quoted name stay whole. -/
example : splitFields "time,V(N009,d),\"a,b\",I(L1)".toList ',' =
    ["time".toList, "V(N009,d)".toList, "\"a,b\"".toList, "I(L1)".toList] ∧ Plain ',' := ⟨by decide +kernel, by decide, by decide, by decide⟩

/-- Case of `plain_lines`. -/
example : ∀ c ∈ "0;0,5;1".toList, c ≠ '"' ∧ c ≠ '(' := by decide

/-! ## C273: the separator -/

theorem split_count (sep : Char) (hsep : Plain sep) : ∀ (rest : Text) (s : Scan) (cur : Text),
    (splitLoop sep s cur rest).length = countLoop sep s rest + 1
  | [], s, cur => by simp [splitLoop, countLoop]
  | c :: rest, s, cur => by
    rw [splitLoop, countLoop]
    by_cases hc : c = '"'
    · rw [if_pos hc, if_pos hc]; exact split_count sep hsep rest _ _
    · rw [if_neg hc, if_neg hc]
      by_cases hs : c = sep ∧ (s.paren c).quoted = false ∧ (s.paren c).depth = 0
      · rw [if_pos hs, if_pos ⟨hs.2.1, hs.2.2, hs.1⟩, List.length_cons, split_count sep hsep rest]; omega
      · rw [if_neg hs, if_neg (fun h => hs ⟨h.2.2, h.1, h.2.1⟩), split_count sep hsep rest]; omega

theorem count_fields {sep : Char} (h : sep ∈ separators) (line : Text) :
    countLoop sep ⟨false, 0⟩ line + 1 = (splitFields line sep).length := (split_count sep (separators_plain h) line _ _).symm

/-- **C273.** The separator of a file is the one, among comma, semicolon, tab and bar, that cuts its first line in the most fields, at least
two; of several that do, the first in that order. -/
theorem separator_guessed (line : Text) (s : Char) :
    guessSeparator line = some s ↔
      2 ≤ (splitFields line s).length ∧ ∃ a b, separators = a ++ s :: b ∧
        (∀ c ∈ a, (splitFields line c).length < (splitFields line s).length) ∧
        ∀ c ∈ b, (splitFields line c).length ≤ (splitFields line s).length := by
  have h1 := count_fields (sep := ',') (by decide) line
  have h2 := count_fields (sep := ';') (by decide) line
  have h3 := count_fields (sep := '\t') (by decide) line
  have h4 := count_fields (sep := '|') (by decide) line
  have hpos : ∀ c, 1 ≤ (splitFields line c).length := fun c =>
    List.length_pos_of_ne_nil (splitLoop_ne_nil c line _ _)
  have hsplit : ∀ a b, separators = a ++ s :: b ↔
      (a = [] ∧ s = ',' ∧ b = [';', '\t', '|']) ∨ (a = [','] ∧ s = ';' ∧ b = ['\t', '|']) ∨
        (a = [',', ';'] ∧ s = '\t' ∧ b = ['|']) ∨ (a = [',', ';', '\t'] ∧ s = '|' ∧ b = []) := by
    intro a b
    unfold separators
    constructor
    · intro h
      rcases a with _ | ⟨a1, _ | ⟨a2, _ | ⟨a3, _ | ⟨a4, a⟩⟩⟩⟩
      · simp only [List.nil_append, List.cons.injEq] at h
        exact .inl ⟨rfl, h.1.symm, h.2.symm⟩
      · simp only [List.cons_append, List.nil_append, List.cons.injEq] at h
        exact .inr (.inl ⟨by rw [h.1], h.2.1.symm, h.2.2.symm⟩)
      · simp only [List.cons_append, List.nil_append, List.cons.injEq] at h
        exact .inr (.inr (.inl ⟨by rw [h.1, h.2.1], h.2.2.1.symm, h.2.2.2.symm⟩))
      · simp only [List.cons_append, List.nil_append, List.cons.injEq] at h
        exact .inr (.inr (.inr ⟨by rw [h.1, h.2.1, h.2.2.1], h.2.2.2.1.symm, h.2.2.2.2.symm⟩))
      · simp at h
    · rintro (⟨rfl, rfl, rfl⟩ | ⟨rfl, rfl, rfl⟩ | ⟨rfl, rfl, rfl⟩ | ⟨rfl, rfl, rfl⟩) <;> rfl
  simp only [hsplit]
  unfold guessSeparator separators bestSeparator bestSeparator bestSeparator bestSeparator bestSeparator
  simp only [h1, h2, h3, h4]
  constructor
  · intro h
    split_ifs at h <;> simp only [Option.some.injEq, reduceCtorEq] at h <;> subst h
    all_goals first
      | exact ⟨by omega, _, _, .inl ⟨rfl, rfl, rfl⟩, by simp, by simp; omega⟩
      | exact ⟨by omega, _, _, .inr (.inl ⟨rfl, rfl, rfl⟩), by simp; omega, by simp; omega⟩
      | exact ⟨by omega, _, _, .inr (.inr (.inl ⟨rfl, rfl, rfl⟩)), by simp; omega, by simp; omega⟩
      | exact ⟨by omega, _, _, .inr (.inr (.inr ⟨rfl, rfl, rfl⟩)), by simp; omega, by simp⟩
  · rintro ⟨hn, a, b, (⟨rfl, rfl, rfl⟩ | ⟨rfl, rfl, rfl⟩ | ⟨rfl, rfl, rfl⟩ | ⟨rfl, rfl, rfl⟩), ha, hb⟩ <;>
      simp only [List.mem_cons, List.not_mem_nil, or_false, forall_eq_or_imp, forall_eq, false_implies, implies_true] at ha hb <;>
      split_ifs <;> first | rfl | omega

/-- **C273.** There is none exactly when no candidate cuts the line. -/
theorem no_separator (line : Text) : guessSeparator line = none ↔ ∀ c ∈ separators, splitFields line c = [line] := by
  have hone : ∀ c ∈ separators, splitFields line c = [line] ↔ (splitFields line c).length = 1 := by
    intro c hc
    refine ⟨fun h => by rw [h]; rfl, fun h => ?_⟩
    obtain ⟨f, hf⟩ := List.length_eq_one_iff.mp h
    have := fields_joined (separators_plain hc) line
    rw [hf] at this ⊢
    simp at this
    rw [this]
  have hpos : ∀ c, 1 ≤ (splitFields line c).length := fun c =>
    List.length_pos_of_ne_nil (splitLoop_ne_nil c line _ _)
  have h1 := count_fields (sep := ',') (by decide) line
  have h2 := count_fields (sep := ';') (by decide) line
  have h3 := count_fields (sep := '\t') (by decide) line
  have h4 := count_fields (sep := '|') (by decide) line
  rw [show (∀ c ∈ separators, splitFields line c = [line]) ↔ ∀ c ∈ separators, (splitFields line c).length = 1 from
    forall₂_congr fun c hc => hone c hc]
  have p1 := hpos ','
  have p2 := hpos ';'
  have p3 := hpos '\t'
  have p4 := hpos '|'
  unfold guessSeparator separators bestSeparator bestSeparator bestSeparator bestSeparator bestSeparator
  simp only [h1, h2, h3, h4, List.mem_cons, List.not_mem_nil, or_false, forall_eq_or_imp, forall_eq]
  constructor
  · intro h
    split_ifs at h <;> simp only [reduceCtorEq] at h <;> omega
  · rintro ⟨e1, e2, e3, e4⟩
    rw [e1, e2, e3, e4]
    simp

/-- Case of `separator_guessed` and `no_separator`. -/
example : guessSeparator "\"Voltage, primary\";\"Current, primary\";\"Time / s\"".toList = some ';' ∧
    guessSeparator "time,V(N009;d;e),I(L1)".toList = some ',' ∧ guessSeparator "time V(a,b)".toList = none :=
  ⟨by decide +kernel, by decide +kernel, by decide +kernel⟩

end Verif.Reader
