import Verif.CoreModes.Model

/-! # What the core adviser searches in each mode -/

set_option linter.unusedVariables false
set_option linter.unusedSimpArgs false

namespace Verif.CoreModes

variable {C F : Type}

theorem distinct_spec (seen : List String) (l : List (Shape F)) :
    (distinct seen l = none ↔ ∃ s ∈ l, s.name = none ∨ s.name = some "") ∧
    ∀ r, distinct seen l = some r → r.Sublist l ∧ (r.map fun s => s.name).Nodup ∧
      (∀ s ∈ r, s.name.getD "" ∉ seen) ∧
      (∀ s ∈ l, s.name.getD "" ∈ seen ∨ ∃ t ∈ r, t.name = s.name) ∧ (∀ s ∈ r, s.name ≠ none ∧ s.name ≠ some "") := by
  induction l generalizing seen with
  | nil => simp [distinct]
  | cons a l ih =>
    unfold distinct
    have he : a.name.getD "" = "" ↔ a.name = none ∨ a.name = some "" := by cases a.name <;> simp
    by_cases h0 : a.name.getD "" = ""
    · rw [if_pos h0]
      refine ⟨⟨fun _ => ⟨a, List.mem_cons_self .., he.1 h0⟩, fun _ => rfl⟩, fun r hr => by simp at hr⟩
    · rw [if_neg h0]
      have hna : ¬ (a.name = none ∨ a.name = some "") := fun h => h0 (he.2 h)
      by_cases hs : a.name.getD "" ∈ seen
      · rw [if_pos hs]
        obtain ⟨h1, h2⟩ := ih seen
        refine ⟨?_, fun r hr => ?_⟩
        · rw [h1]; simp [hna]
        · obtain ⟨g1, g2, g3, g4, g5⟩ := h2 r hr
          refine ⟨g1.cons _, g2, g3, fun s hsm => ?_, g5⟩
          rcases List.mem_cons.1 hsm with rfl | hsm
          · exact Or.inl hs
          · exact g4 s hsm
      · rw [if_neg hs]
        obtain ⟨h1, h2⟩ := ih (a.name.getD "" :: seen)
        refine ⟨?_, fun r hr => ?_⟩
        · rw [Option.map_eq_none_iff, h1]; simp [hna]
        · obtain ⟨r', hr', rfl⟩ := Option.map_eq_some_iff.1 hr
          obtain ⟨g1, g2, g3, g4, g5⟩ := h2 r' hr'
          refine ⟨g1.cons_cons _, ?_, ?_, ?_, ?_⟩
          · rw [List.map_cons, List.nodup_cons]
            refine ⟨fun hm => ?_, g2⟩
            obtain ⟨t, ht, hta⟩ := List.mem_map.1 hm
            exact g3 t ht (by rw [hta]; simp)
          · intro s hsm
            rcases List.mem_cons.1 hsm with rfl | hsm
            · exact hs
            · exact fun h => g3 s hsm (List.mem_cons_of_mem _ h)
          · intro s hsm
            rcases List.mem_cons.1 hsm with rfl | hsm
            · exact Or.inr ⟨s, List.mem_cons_self .., rfl⟩
            · rcases g4 s hsm with h | ⟨t, ht, hts⟩
              · rcases List.mem_cons.1 h with h | h
                · right
                  refine ⟨a, List.mem_cons_self .., ?_⟩
                  cases ha : a.name with
                  | none => exact absurd (Or.inl ha) hna
                  | some x =>
                    cases hsn : s.name with
                    | none => rw [ha, hsn] at h; simp at h; exact absurd (by rw [ha, ← h]; exact Or.inr rfl) hna
                    | some y => rw [ha, hsn] at h; simp at h; rw [h]
                · exact Or.inl h
              · exact Or.inr ⟨t, List.mem_cons_of_mem _ ht, hts⟩
          · intro s hsm
            rcases List.mem_cons.1 hsm with rfl | hsm
            · exact not_or.1 hna
            · exact g5 s hsm

/-- **C414.** Of the shapes in the catalogue, which has each under its name and its aliases, every name is searched once and
none is left out; the request is refused exactly when a shape has no name. -/
theorem shapes_once (l : List (Shape F)) :
    (distinct [] l = none ↔ ∃ s ∈ l, s.name = none ∨ s.name = some "") ∧
    ∀ r, distinct [] l = some r → r.Sublist l ∧ (r.map fun s => s.name).Nodup ∧ ∀ s ∈ l, ∃ t ∈ r, t.name = s.name := by
  obtain ⟨h1, h2⟩ := distinct_spec [] l
  refine ⟨h1, fun r hr => ?_⟩
  obtain ⟨g1, g2, _, g4, _⟩ := h2 r hr
  exact ⟨g1, g2, fun s hs => by simpa using g4 s hs⟩

theorem trimmed_spec (accepts : F → Bool) (seen : List String) (l : List (Shape F)) :
    (trimmed accepts seen l).Sublist l ∧ ((trimmed accepts seen l).map fun s => s.name).Nodup ∧
      (∀ s ∈ trimmed accepts seen l, accepts s.family = true ∧ s.name.getD "" ∉ seen ∧ s.name.getD "" ≠ "") ∧
      ∀ s ∈ l, accepts s.family = true → s.name.getD "" ≠ "" →
        s.name.getD "" ∈ seen ∨ ∃ t ∈ trimmed accepts seen l, t.name = s.name := by
  induction l generalizing seen with
  | nil => simp [trimmed]
  | cons a l ih =>
    unfold trimmed
    by_cases h0 : accepts a.family = false
    · rw [if_pos h0]
      obtain ⟨g1, g2, g3, g4⟩ := ih seen
      refine ⟨g1.cons _, g2, g3, fun s hs ha hn => ?_⟩
      rcases List.mem_cons.1 hs with rfl | hs
      · rw [h0] at ha; simp at ha
      · exact g4 s hs ha hn
    · rw [if_neg h0]
      by_cases h1 : a.name.getD "" = "" ∨ a.name.getD "" ∈ seen
      · rw [if_pos h1]
        obtain ⟨g1, g2, g3, g4⟩ := ih seen
        refine ⟨g1.cons _, g2, g3, fun s hs ha hn => ?_⟩
        rcases List.mem_cons.1 hs with rfl | hs
        · exact Or.inl (h1.resolve_left hn)
        · exact g4 s hs ha hn
      · rw [if_neg h1]
        push Not at h1
        obtain ⟨g1, g2, g3, g4⟩ := ih (a.name.getD "" :: seen)
        refine ⟨g1.cons_cons _, ?_, ?_, ?_⟩
        · rw [List.map_cons, List.nodup_cons]
          refine ⟨fun hm => ?_, g2⟩
          obtain ⟨t, ht, hta⟩ := List.mem_map.1 hm
          exact (g3 t ht).2.1 (by rw [hta]; simp)
        · intro s hs
          rcases List.mem_cons.1 hs with rfl | hs
          · exact ⟨by simpa using h0, h1.2, h1.1⟩
          · obtain ⟨k1, k2, k3⟩ := g3 s hs
            exact ⟨k1, fun h => k2 (List.mem_cons_of_mem _ h), k3⟩
        · intro s hs ha hn
          rcases List.mem_cons.1 hs with rfl | hs
          · exact Or.inr ⟨s, List.mem_cons_self .., rfl⟩
          · rcases g4 s hs ha hn with h | ⟨t, ht, hts⟩
            · rcases List.mem_cons.1 h with h | h
              · right
                refine ⟨a, List.mem_cons_self .., ?_⟩
                cases hA : a.name with
                | none => simp [hA] at h1
                | some x =>
                  cases hS : s.name with
                  | none => simp [hS] at hn
                  | some y => rw [hA, hS] at h; simp at h; rw [h]
              · exact Or.inl h
            · exact Or.inr ⟨t, List.mem_cons_of_mem _ ht, hts⟩

/-- **C415.** With constraints only the cores that they accept are searched among those available, and only the families that
they accept among the standard shapes, each name once and none left out. -/
theorem constrained_partial (w : World C F) (c : Constraints C F) (h : c.given = true) :
    (∃ l, adviseWith w c .available = some (w.searchCores l) ∧ ∀ x, x ∈ l ↔ x ∈ w.cores ∧ c.core x = true) ∧
    ∃ l, adviseWith w c .standard = some (w.searchShapes l) ∧ (l.map fun s => s.name).Nodup ∧
      (∀ s ∈ l, s ∈ w.shapes ∧ c.family s.family = true) ∧
      ∀ s ∈ w.shapes, c.family s.family = true → s.name.getD "" ≠ "" → ∃ t ∈ l, t.name = s.name := by
  constructor
  · refine ⟨w.cores.filter c.core, by simp [adviseWith, h], fun x => by simp [List.mem_filter]⟩
  · obtain ⟨g1, g2, g3, g4⟩ := trimmed_spec c.family [] w.shapes
    refine ⟨trimmed c.family [] w.shapes, by simp [adviseWith, h], g2, fun s hs => ⟨g1.subset hs, (g3 s hs).1⟩, ?_⟩
    intro s hs ha hn
    simpa using g4 s hs ha hn

/-- **C415.** Constraints on the material change nothing among standard shapes, and no constraint does for custom ones. -/
theorem material_ignored (w : World C F) (c : Constraints C F) (core : C → Bool) (family : F → Bool) (h : c.given = true) :
    adviseWith w c .standard = adviseWith w { c with core := core } .standard ∧
      adviseWith w c .custom = adviseWith w { c with core := core, family := family, given := false } .custom := by
  simp [adviseWith, h]

/-- A request for power that no standard shape meets. -/
def boost : World Nat Nat := ⟨[1], [⟨some "E 1", 0⟩], [], fun cs => cs.map fun c => ⟨some none, none, c⟩, fun _ => [], true⟩

/-- **C415.** A constraint that says nothing about cores, one on the type of wire, makes the adviser give nothing where it
gives cores of the other catalogue without it. -/
theorem wire_constraint_changes :
    adviseWith boost ⟨false, fun _ => true, fun _ => true⟩ .standard =
        some [⟨some (some ("unnamed" ++ tagText)), some ("unnamed" ++ tagText), 1⟩] ∧
      adviseWith boost ⟨true, fun _ => true, fun _ => true⟩ .standard = some [] := ⟨by decide +kernel, by decide +kernel⟩

/-- **C416.** Without constraints, standard shapes are answered from the catalogue of available cores only for power and when
they give nothing themselves, and then every result says so in the name of the core, and in its reference if it has one. -/
theorem fallback_tagged (w : World C F) (rs : List Result) (h : advise w .standard = some rs) :
    (∃ shapes, distinct [] w.shapes = some shapes ∧ rs = w.searchShapes shapes ∧ (rs ≠ [] ∨ w.power = false)) ∨
    ((∃ shapes, distinct [] w.shapes = some shapes ∧ w.searchShapes shapes = []) ∧ w.power = true ∧
      rs.length = (w.searchCores w.cores).length ∧
      ∀ (i : Nat) (r : Result), rs[i]? = some r → ∃ q, (w.searchCores w.cores)[i]? = some q ∧ r.score = q.score ∧
        r.coreName = some (q.coreName.getD "unnamed" ++
          " [advised from available-cores catalogue: no standard core met this spec]") ∧
        (q.reference = none → r.reference = none) ∧
        ∀ n, q.reference = some n → r.reference = some (some (n.getD "unnamed" ++
          " [advised from available-cores catalogue: no standard core met this spec]"))) := by
  unfold advise at h
  obtain ⟨shapes, hs, hr⟩ := Option.map_eq_some_iff.1 h
  by_cases hc : w.searchShapes shapes ≠ [] ∨ w.power = false
  · rw [if_pos hc] at hr
    exact Or.inl ⟨shapes, hs, hr.symm, by rw [← hr]; exact hc⟩
  · rw [if_neg hc] at hr
    push Not at hc
    right
    refine ⟨⟨shapes, hs, hc.1⟩, by simpa using hc.2, by rw [← hr]; simp, fun i r hi => ?_⟩
    rw [← hr, List.getElem?_map] at hi
    obtain ⟨q, hq, rfl⟩ := Option.map_eq_some_iff.1 hi
    refine ⟨q, hq, rfl, rfl, fun hn => by simp [tag, hn], fun n hn => by simp [tag, hn, tagText]⟩

example : advise boost .standard = some [⟨some (some ("unnamed" ++ tagText)), some ("unnamed" ++ tagText), 1⟩] := by
  decide +kernel
example : distinct [] [(⟨some "E 1", 0⟩ : Shape Nat), ⟨some "E 2", 0⟩, ⟨some "E 1", 0⟩] = some [⟨some "E 1", 0⟩, ⟨some "E 2", 0⟩] := by
  decide +kernel
example : distinct [] [(⟨some "E 1", 0⟩ : Shape Nat), ⟨none, 0⟩] = none := by decide +kernel
example : trimmed (fun f => decide (f = 0)) [] [(⟨some "E 1", 0⟩ : Shape Nat), ⟨none, 0⟩, ⟨some "T 1", 1⟩, ⟨some "E 1", 0⟩] =
    [⟨some "E 1", 0⟩] := by decide +kernel

/-! ## Inputs that are not processed -/

/-- Whether an excitation is fit for the adviser: without a current, or with one whose frequency and value are known. -/
def Fit : Excitation → Prop
  | none => True
  | some none => False
  | some (some p) => p.effectiveFrequency = true ∧ p.rms = true

/-- What is first missing in an excitation. -/
def Lacks : Excitation → Missing → Prop
  | some none, m => m = .block
  | some (some p), m => (p.effectiveFrequency = false ∧ m = .effectiveFrequency) ∨
      (p.effectiveFrequency = true ∧ p.rms = false ∧ m = .rms)
  | none, _ => False

theorem lacks_none (e : Excitation) : lacks e = none ↔ Fit e := by
  rcases e with _ | _ | ⟨_ | _, _ | _⟩ <;> simp [lacks, Fit]

theorem lacks_some (e : Excitation) (m : Missing) : lacks e = some m ↔ Lacks e m := by
  rcases e with _ | _ | ⟨_ | _, _ | _⟩ <;> simp [lacks, Lacks, eq_comm]

theorem checkWindings_spec (k : Nat) (es : List Excitation) :
    (checkWindings k es = none ↔ ∀ e ∈ es, Fit e) ∧
    ∀ i m, checkWindings k es = some (i, m) → ∃ j e, i = k + j ∧ es[j]? = some e ∧ Lacks e m ∧
      ∀ (n : Nat) (x : Excitation), n < j → es[n]? = some x → Fit x := by
  induction es generalizing k with
  | nil => simp [checkWindings]
  | cons a es ih =>
    unfold checkWindings
    cases h : lacks a with
    | none =>
      simp only
      have ha := (lacks_none a).1 h
      obtain ⟨h1, h2⟩ := ih (k + 1)
      refine ⟨by rw [h1]; simp [ha], fun i m hi => ?_⟩
      obtain ⟨j, e, rfl, hj, hl, hb⟩ := h2 i m hi
      refine ⟨j + 1, e, by omega, by simpa using hj, hl, fun n x hn hx => ?_⟩
      cases n with
      | zero =>
        simp only [List.getElem?_cons_zero, Option.some.injEq] at hx
        exact hx ▸ ha
      | succ n => exact hb n x (by omega) (by simpa using hx)
    | some m =>
      simp only
      have hn : ¬ Fit a := fun hf => by rw [(lacks_none a).2 hf] at h; simp at h
      refine ⟨by simp [hn], fun i m' hi => ?_⟩
      obtain ⟨rfl, rfl⟩ : k = i ∧ m = m' := by simpa using hi
      exact ⟨0, a, rfl, rfl, (lacks_some a m).1 h, fun n x hn' => by omega⟩

theorem check_spec (k : Nat) (ps : List (List Excitation)) :
    (check k ps = none ↔ ∀ p ∈ ps, ∀ e ∈ p, Fit e) ∧
    ∀ o i m, check k ps = some (o, i, m) → ∃ j p e, o = k + j ∧ ps[j]? = some p ∧ p[i]? = some e ∧ Lacks e m ∧
      (∀ (n : Nat) (x : Excitation), n < i → p[n]? = some x → Fit x) ∧
      ∀ (n : Nat) (q : List Excitation), n < j → ps[n]? = some q → ∀ x ∈ q, Fit x := by
  induction ps generalizing k with
  | nil => simp [check]
  | cons a ps ih =>
    unfold check
    obtain ⟨c1, c2⟩ := checkWindings_spec 0 a
    cases h : checkWindings 0 a with
    | none =>
      simp only
      have ha := c1.1 h
      obtain ⟨h1, h2⟩ := ih (k + 1)
      refine ⟨?_, fun o i m hi => ?_⟩
      · rw [h1, List.forall_mem_cons]
        exact ⟨fun hx => ⟨ha, hx⟩, fun hx => hx.2⟩
      · obtain ⟨j, p, e, rfl, hj, he, hl, hb, hc⟩ := h2 o i m hi
        refine ⟨j + 1, p, e, by omega, by simpa using hj, he, hl, hb, fun n q hn hq => ?_⟩
        cases n with
        | zero =>
          simp only [List.getElem?_cons_zero, Option.some.injEq] at hq
          exact hq ▸ ha
        | succ n => exact hc n q (by omega) (by simpa using hq)
    | some y =>
      obtain ⟨i0, m0⟩ := y
      simp only
      refine ⟨?_, fun o i m hi => ?_⟩
      · constructor
        · intro hx; simp at hx
        · intro hx
          have := c1.2 (hx a (List.mem_cons_self ..))
          rw [this] at h; simp at h
      · obtain ⟨rfl, rfl, rfl⟩ : k = o ∧ i0 = i ∧ m0 = m := by simpa using hi
        obtain ⟨j, e, hij, hj, hl, hb⟩ := c2 i0 m0 h
        obtain rfl : i0 = j := by omega
        exact ⟨0, a, e, rfl, rfl, hj, hl, hb, fun n q hn => by omega⟩

/-- **C417.** Inputs are refused exactly when some current lacks its processed data, its effective frequency or its effective
value; the exception names the first such winding of the first such operating point and what it lacks. -/
theorem processed_required (ps : List (List Excitation)) :
    (check 0 ps = none ↔ ∀ p ∈ ps, ∀ e ∈ p, Fit e) ∧
    ∀ o i m, check 0 ps = some (o, i, m) → ∃ p e, ps[o]? = some p ∧ p[i]? = some e ∧ Lacks e m ∧
      (∀ (n : Nat) (x : Excitation), n < i → p[n]? = some x → Fit x) ∧
      ∀ (n : Nat) (q : List Excitation), n < o → ps[n]? = some q → ∀ x ∈ q, Fit x := by
  obtain ⟨h1, h2⟩ := check_spec 0 ps
  refine ⟨h1, fun o i m h => ?_⟩
  obtain ⟨j, p, e, hj, rest⟩ := h2 o i m h
  obtain rfl : o = j := by omega
  exact ⟨p, e, rest⟩

example : check 0 [[none, some (some ⟨true, true⟩)], [some (some ⟨true, false⟩), some none]] = some (1, 0, .rms) := by
  decide +kernel

end Verif.CoreModes
