import Verif.Materials.Model
import Verif.Maxima.Props
import Verif.Adviser.Props
import Mathlib.Algebra.Order.Field.Rat
import Mathlib.Tactic.NormNum
import Mathlib.Tactic.Linarith

/-!
# Properties of the materials tried by the core adviser
-/

set_option linter.unusedSectionVars false
set_option linter.unusedSimpArgs false

namespace Verif.Materials

open Verif.Maxima (Point Out)

/-! ## What a material is for -/

theorem byMethods_iff (a : Application) (l : List Method) :
    byMethods a l = true ↔ (a = .signal ∧ .lossFactor ∈ l) ∨ (a = .power ∧ ∃ k ∈ l, k ≠ .lossFactor) := by
  induction l with
  | nil => simp [byMethods]
  | cons k ks ih =>
    unfold byMethods
    by_cases hk : k = .lossFactor
    · subst hk
      cases a <;> simp [ih]
    · rw [if_neg hk]
      cases a <;> simp [ih, hk, Ne.symm hk]

/-- The tags say so. -/
def Tagged (m : Material) (a : Application) : Prop := ∃ ts, m.tags = some ts ∧ a ∈ ts

theorem tagged_iff (m : Material) (a : Application) : tagged m a = true ↔ Tagged m a := by
  unfold tagged Tagged
  cases m.tags <;> simp

/-- **C304.** A material is accepted for power if it is tagged so or has losses other than a loss factor. -/
theorem suits_power (m : Material) : suits m .power = true ↔ Tagged m .power ∨ ∃ k ∈ m.methods, k ≠ .lossFactor := by
  unfold suits
  rw [if_neg (by simp), ← tagged_iff]
  by_cases h : tagged m .power = true
  · have : m.tags.isSome = true := by
      unfold tagged at h
      cases ht : m.tags <;> simp_all
    simp [h, this]
  · simp [h, byMethods_iff]

/-- **C304.** A material is accepted for signals if it is tagged so or has a loss factor. -/
theorem suits_signal (m : Material) : suits m .signal = true ↔ Tagged m .signal ∨ .lossFactor ∈ m.methods := by
  unfold suits
  rw [if_neg (by simp), ← tagged_iff]
  by_cases h : tagged m .signal = true
  · have : m.tags.isSome = true := by
      unfold tagged at h
      cases ht : m.tags <;> simp_all
    simp [h, this]
  · simp [h, byMethods_iff]

/-- **C304.** A material is accepted for suppression if it is tagged for it or for signals and its complex permeability is known or can be derived; one
without tags, if its complex permeability is known. -/
theorem suits_suppression (m : Material) : suits m .suppression = true ↔
    ((m.complex = true ∨ m.derivable = true) ∧ (Tagged m .suppression ∨ Tagged m .signal)) ∨ (m.tags = none ∧ m.complex = true) := by
  unfold suits
  rw [← tagged_iff, ← tagged_iff]
  cases ht : m.tags with
  | none =>
    have h1 : ∀ a, tagged m a = false := by intro a; unfold tagged; rw [ht]
    rw [if_neg (by simp)]
    simp only [Option.isSome_none, Bool.false_and, Bool.false_eq_true, if_false, decide_true, Bool.and_true, h1]
    cases m.complex <;> simp [byMethods_iff]
  | some ts =>
    rw [if_pos (by simp)]
    cases hc : m.complex <;> cases hd : m.derivable <;> simp

/-- **C304.** What a material is said to be for is answered once and for all: asking writes it down, and asking again answers the same. -/
theorem resolve_stable (m : Material) :
    (resolve m).2 = guess m ∧ guess (resolve m).1 = guess m ∧ resolve (resolve m).1 = ((resolve m).1, guess m) := by
  unfold resolve
  match ht : m.tags with
  | some (a :: ts) => simp [guess, ht]
  | some [] => simp [guess]
  | none => simp [guess]

/-- **C304.** A material without tags that has losses is accepted for what it is guessed to be for, and keeps being so once that is written down, if it
is not for suppression. -/
theorem guess_suits_partial (m : Material) (ht : m.tags = none) (hm : m.methods ≠ []) :
    suits m (guess m) = true ∧ (guess m ≠ .suppression → suits (resolve m).1 (guess m) = true) ∧
      (guess m = .suppression → suits (resolve m).1 .suppression = true) := by
  have hg : guess m = if m.methods.contains .lossFactor then (if m.complex then .suppression else .signal) else .power := by
    unfold guess; rw [ht]
  have hr : (resolve m).1 = { m with tags := some [guess m] } := by unfold resolve; rw [ht]
  rw [hr]
  by_cases hl : m.methods.contains .lossFactor = true
  · rw [if_pos hl] at hg
    have hl' : Method.lossFactor ∈ m.methods := by simpa using hl
    by_cases hc : m.complex = true
    · rw [if_pos hc] at hg
      rw [hg]
      refine ⟨(suits_suppression m).2 (Or.inr ⟨ht, hc⟩), fun h => absurd rfl h, fun _ => ?_⟩
      exact (suits_suppression _).2 (Or.inl ⟨Or.inl hc, Or.inl ⟨_, rfl, by simp⟩⟩)
    · rw [if_neg hc] at hg
      rw [hg]
      exact ⟨(suits_signal m).2 (Or.inr hl'), fun _ => (suits_signal _).2 (Or.inr hl'), fun h => absurd h (by simp)⟩
  · rw [if_neg hl] at hg
    rw [hg]
    have : ∃ k ∈ m.methods, k ≠ .lossFactor := by
      obtain ⟨k, ks, e⟩ := List.exists_cons_of_ne_nil hm
      exact ⟨k, by rw [e]; simp, fun hk => hl (by rw [e, hk]; simp)⟩
    exact ⟨(suits_power m).2 (Or.inr this), fun _ => (suits_power _).2 (Or.inr this), fun h => absurd h (by simp)⟩

/-- A material nothing is known of. -/
def unknown : Material := ⟨"X", "Y", true, none, false, false, []⟩

/-- **C304.** A material without losses is guessed to be for power and not accepted for it, until the guess is written down. -/
theorem guess_not_accepted : guess unknown = .power ∧ suits unknown .power = false ∧ suits (resolve unknown).1 .power = true := by decide +kernel

/-- **C304.** A material tagged for suppression only is not accepted for it without complex permeability. -/
theorem tag_not_accepted : ∃ m : Material, guess m = .suppression ∧ suits m .suppression = false :=
  ⟨⟨"X", "Y", false, some [.suppression], false, false, [.steinmetz]⟩, by decide +kernel⟩

/-! ## Candidates -/

theorem ofMaker_mem (c : List Material) (k : String) (m : Material) : m ∈ ofMaker c (some k) ↔ m ∈ c ∧ (m.maker = k ∨ k = "") := by
  simp [ofMaker]

/-- **C305.** The candidates are the materials of the preferred maker that suit the application or, if the catalogue has none of that maker, all those
that suit it; in the order of the catalogue. -/
theorem candidates_mem (c : List Material) (k : String) (a : Application) (m : Material) :
    m ∈ candidates c k a ↔ m ∈ c ∧ suits m a = true ∧ ((m.maker = k ∨ k = "") ∨ ∀ x ∈ c, x.maker ≠ k ∧ k ≠ "") := by
  unfold candidates
  rw [List.mem_filter]
  by_cases h : ofMaker c (some k) = []
  · rw [if_pos h]
    have hall : ∀ x ∈ c, x.maker ≠ k ∧ k ≠ "" := by
      intro x hx
      have : x ∉ ofMaker c (some k) := by rw [h]; simp
      rw [ofMaker_mem] at this
      push Not at this
      exact this hx
    simp only [ofMaker]
    exact ⟨fun ⟨h1, h2⟩ => ⟨h1, h2, Or.inr hall⟩, fun ⟨h1, h2, _⟩ => ⟨h1, h2⟩⟩
  · rw [if_neg h, ofMaker_mem]
    obtain ⟨x, hx⟩ := List.exists_mem_of_ne_nil _ h
    rw [ofMaker_mem] at hx
    constructor
    · rintro ⟨⟨h1, h2⟩, h3⟩; exact ⟨h1, h3, Or.inl h2⟩
    · rintro ⟨h1, h2, h3 | h3⟩
      · exact ⟨⟨h1, h3⟩, h2⟩
      · have := h3 x hx.1
        rcases hx.2 with e | e
        · exact absurd e this.1
        · exact absurd e this.2

theorem candidates_order (c : List Material) (k : String) (a : Application) : (candidates c k a).Sublist c := by
  unfold candidates ofMaker
  refine List.filter_sublist.trans ?_
  split_ifs
  · exact List.Sublist.refl _
  · exact List.filter_sublist

/-! ## Rankings -/

variable {K : Type} [Field K] [LinearOrder K] [IsStrictOrderedRing K]

/-- The evaluations: every material that is not an exception, with its value. -/
theorem evaluate_mem (f : Material → Val K) (ms : List Material) (m : Material) (v : Option K) :
    (m, v) ∈ evaluate f ms ↔ m ∈ ms ∧ ((f m = .nan ∧ v = none) ∨ ∃ k, f m = .num k ∧ v = some k) := by
  induction ms with
  | nil => simp [evaluate]
  | cons x xs ih =>
    unfold evaluate
    cases hx : f x with
    | throws =>
      simp only [ih, List.mem_cons]
      constructor
      · rintro ⟨h1, h2⟩; exact ⟨Or.inr h1, h2⟩
      · rintro ⟨rfl | h1, h2⟩
        · simp [hx] at h2
        · exact ⟨h1, h2⟩
    | nan =>
      simp only [List.mem_cons, ih, Prod.mk.injEq]
      constructor
      · rintro (⟨rfl, rfl⟩ | ⟨h1, h2⟩)
        · exact ⟨Or.inl rfl, Or.inl ⟨hx, rfl⟩⟩
        · exact ⟨Or.inr h1, h2⟩
      · rintro ⟨rfl | h1, h2⟩
        · simp [hx] at h2; exact Or.inl ⟨rfl, h2⟩
        · exact Or.inr ⟨h1, h2⟩
    | num k =>
      simp only [List.mem_cons, ih, Prod.mk.injEq]
      constructor
      · rintro (⟨rfl, rfl⟩ | ⟨h1, h2⟩)
        · exact ⟨Or.inl rfl, Or.inr ⟨k, hx, rfl⟩⟩
        · exact ⟨Or.inr h1, h2⟩
      · rintro ⟨rfl | h1, h2⟩
        · simp [hx] at h2; exact Or.inl ⟨rfl, h2⟩
        · exact Or.inr ⟨h1, h2⟩

theorem evaluate_map (f : Material → Val K) (ms : List Material) : (evaluate f ms).map Prod.fst = ms.filter (fun m => !decide (f m = .throws)) := by
  induction ms with
  | nil => rfl
  | cons x xs ih =>
    unfold evaluate
    cases hx : f x <;> simp [hx, ih]

/-- A material goes before another: a better value or, with the same one, earlier in the list. -/
def Ranked (le : K → K → Prop) (f : Material → Val K) (ms out : List Material) : Prop :=
  out.Perm (ms.filter fun m => !decide (f m = .throws)) ∧
  out.Pairwise (fun m n => ∀ k l, f m = .num k → f n = .num l → le k l) ∧
  ∀ k, out.filter (fun m => decide (f m = .num k)) = ms.filter (fun m => decide (f m = .num k))

theorem filter_insert {α : Type} (r : α → α → Prop) [DecidableRel r] (p : α → Bool) (a : α) (l : List α)
    (h : ∀ b ∈ l, ¬r a b → p a = true → p b = false) : (l.orderedInsert r a).filter p = (a :: l).filter p := by
  induction l with
  | nil => rfl
  | cons b l ih =>
    unfold List.orderedInsert
    by_cases hab : r a b
    · rw [if_pos hab]
    · rw [if_neg hab]
      have ih' := ih fun c hc => h c (List.mem_cons_of_mem _ hc)
      rw [List.filter_cons, ih']
      by_cases hp : p a = true
      · have := h b List.mem_cons_self hab hp
        simp [this, hp]
      · simp only [Bool.not_eq_true] at hp
        simp [hp, List.filter_cons]

theorem filter_sort {α : Type} (r : α → α → Prop) [DecidableRel r] (p : α → Bool) (l : List α)
    (h : ∀ a ∈ l, ∀ b ∈ l, ¬r a b → p a = true → p b = false) : (l.insertionSort r).filter p = l.filter p := by
  induction l with
  | nil => rfl
  | cons a l ih =>
    rw [List.insertionSort_cons, filter_insert]
    · rw [List.filter_cons, List.filter_cons, ih fun x hx y hy => h x (List.mem_cons_of_mem _ hx) y (List.mem_cons_of_mem _ hy)]
    · intro b hb
      exact h a List.mem_cons_self b (List.mem_cons_of_mem _ ((List.mem_insertionSort _).1 hb))

/-- The ranking is what it should be, if answered. -/
theorem sorted_ranked (le : K → K → Prop) [DecidableRel le] (hr : ∀ a, le a a) (ht : ∀ a b, le a b ∨ le b a) (hs : ∀ a b c, le a b → le b c → le a c)
    (f : Material → Val K) (ms out : List Material) (h : sorted le (evaluate f ms) = .ok out) : Ranked le f ms out := by
  have hev := evaluate_map f ms
  have hfil : ∀ k, ms.filter (fun m => decide (f m = .num k)) = (ms.filter fun m => !decide (f m = .throws)).filter fun m => decide (f m = .num k) := by
    intro k
    rw [List.filter_filter]
    apply List.filter_congr
    intro m _
    by_cases e : f m = .num k <;> simp [e]
  unfold sorted at h
  split_ifs at h with h1 h2
  · simp only [Out.ok.injEq] at h
    subst h
    rw [hev]
    refine ⟨List.Perm.refl _, ?_, fun k => (hfil k).symm⟩
    have hl : (ms.filter fun m => !decide (f m = .throws)).length ≤ 1 := by rw [← hev, List.length_map]; exact h1
    match (ms.filter fun m => !decide (f m = .throws)), hl with
    | [], _ => exact List.Pairwise.nil
    | [x], _ => simp
    | _ :: _ :: _, hl => simp at hl
  · simp only [Out.ok.injEq] at h
    subst h
    have hnum : ∀ p ∈ evaluate f ms, ∃ k, p.2 = some k ∧ f p.1 = .num k := by
      intro p hp
      obtain ⟨m, v⟩ := p
      rcases ((evaluate_mem f ms m v).1 hp).2 with ⟨_, e⟩ | ⟨k, e1, e2⟩
      · exfalso
        apply h2
        rw [List.any_eq_true]
        exact ⟨_, hp, by rw [e]; rfl⟩
      · exact ⟨k, e2, e1⟩
    refine ⟨?_, ?_, ?_⟩
    · rw [← hev]
      exact (List.perm_insertionSort _ _).map _
    · have : Std.Total (fun p q : Material × Option K => le (key p) (key q)) := ⟨fun p q => ht _ _⟩
      have : IsTrans (Material × Option K) (fun p q => le (key p) (key q)) := ⟨fun p q r => hs _ _ _⟩
      have hp := List.pairwise_insertionSort (fun p q : Material × Option K => le (key p) (key q)) (evaluate f ms)
      rw [List.pairwise_map]
      refine hp.imp_of_mem ?_
      intro p q hp hq hle k l hk hl
      obtain ⟨k', e1, e2⟩ := hnum p ((List.mem_insertionSort _).1 hp)
      obtain ⟨l', e3, e4⟩ := hnum q ((List.mem_insertionSort _).1 hq)
      rw [hk] at e2
      rw [hl] at e4
      simp only [Val.num.injEq] at e2 e4
      subst e2 e4
      simpa [key, e1, e3] using hle
    · intro k
      rw [hfil, ← hev, List.filter_map, List.filter_map, filter_sort]
      intro p hp q hq hn hpk
      obtain ⟨k', e1, e2⟩ := hnum p hp
      obtain ⟨l', e3, e4⟩ := hnum q hq
      simp only [Function.comp_apply, decide_eq_true_iff, decide_eq_false_iff_not] at hpk ⊢
      intro hq'
      rw [hpk] at e2
      rw [hq'] at e4
      simp only [Val.num.injEq] at e2 e4
      subst e2 e4
      apply hn
      simpa [key, e1, e3] using hr k

theorem sorted_total (le : K → K → Prop) [DecidableRel le] (f : Material → Val K) (ms : List Material) (h : ∀ m ∈ ms, f m ≠ .nan) :
    ∃ out, sorted le (evaluate f ms) = .ok out := by
  unfold sorted
  split_ifs with h1 h2
  · exact ⟨_, rfl⟩
  · exfalso
    rw [List.any_eq_true] at h2
    obtain ⟨⟨m, v⟩, hp, hv⟩ := h2
    rcases (evaluate_mem f ms m v).1 hp with ⟨hm, ⟨e, _⟩ | ⟨k, _, e⟩⟩
    · exact h m hm e
    · rw [e] at hv; exact absurd hv (by simp)
  · exact ⟨_, rfl⟩

theorem le_facts : (∀ a : K, a ≤ a) ∧ (∀ a b : K, a ≤ b ∨ b ≤ a) ∧ ∀ a b c : K, a ≤ b → b ≤ c → a ≤ c :=
  ⟨fun _ => le_rfl, le_total, fun _ _ _ => le_trans⟩

theorem ge_facts : (∀ a : K, a ≥ a) ∧ (∀ a b : K, a ≥ b ∨ b ≥ a) ∧ ∀ a b c : K, a ≥ b → b ≥ c → a ≥ c :=
  ⟨fun _ => le_rfl, fun a b => le_total b a, fun _ _ _ h1 h2 => le_trans h2 h1⟩

/-- **C306.** Ferrites are ranked by their average losses over the operating points, lowest first, and in the order of the catalogue if they are the
same; the candidates whose losses cannot be found are left out, and no other one. -/
theorem ferrite_ranked (env : Env K) (c : List Material) (k : String) (a : Application) (ps : List (Point K)) (out : List Material)
    (h : ferriteRanking env c k a ps = .ok out) : Ranked (· ≤ ·) (averageLosses env 0 ps) (candidates c k a) out := by
  unfold ferriteRanking at h
  rw [Maxima.bind_ok] at h
  obtain ⟨t, _, h⟩ := h
  split_ifs at h
  exact sorted_ranked (· ≤ ·) le_facts.1 le_facts.2.1 le_facts.2.2 _ _ _ h

/-- **C306.** Powder materials are ranked the same way, with the losses at an offset that is the largest direct current. -/
theorem powder_ranked (env : Env K) (c : List Material) (k : String) (a : Application) (ps : List (Point K)) (out : List Material)
    (h : powderRanking env c k a ps = .ok out) :
    ∃ b, Maxima.currentBias 0 ps = .ok b ∧ Ranked (· ≤ ·) (averageLosses env b ps) (candidates c k a) out := by
  unfold powderRanking at h
  rw [Maxima.bind_ok] at h
  obtain ⟨t, _, h⟩ := h
  rw [Maxima.bind_ok] at h
  obtain ⟨b, hb, h⟩ := h
  exact ⟨b, hb, sorted_ranked (· ≤ ·) le_facts.1 le_facts.2.1 le_facts.2.2 _ _ _ h⟩

/-- **C306.** For impedance, the largest total of the absolute permeability at the required frequencies goes first. -/
theorem impedance_ranked (env : Env K) (c : List Material) (k : String) (a : Application) (required : Option (List K)) (out : List Material)
    (h : impedanceRanking env c k a required = .ok out) :
    ∃ fs, required = some fs ∧ Ranked (· ≥ ·) (totalPermeability env fs) (candidates c k a) out := by
  unfold impedanceRanking at h
  cases required with
  | none => simp at h
  | some fs => exact ⟨fs, rfl, sorted_ranked (· ≥ ·) ge_facts.1 ge_facts.2.1 ge_facts.2.2 _ _ _ h⟩

/-- The sum of values that are numbers. -/
theorem total_num {α : Type} (f : α → Val K) (g : α → K) (l : List α) (h : ∀ x ∈ l, f x = .num (g x)) :
    total (l.map f) = .num ((l.map g).sum) := by
  induction l with
  | nil => rfl
  | cons x xs ih =>
    simp only [List.map_cons, total, h x List.mem_cons_self, ih fun y hy => h y (List.mem_cons_of_mem _ hy), List.sum_cons]

/-- **C306.** The losses that are compared are the mean of those at the frequency of the first winding of each operating point, from Steinmetz's
coefficients if the material has them. -/
theorem average_mean (env : Env K) (offset : K) (ps : List (Point K)) (hne : ps ≠ []) (m : Material) (g : Point K → K)
    (h : ∀ p ∈ ps, ∃ e es, p.windings = e :: es ∧
      (if Method.steinmetz ∈ m.methods then env.steinmetz m offset e.frequency else env.proprietary m offset e.frequency) = .num (g p)) :
    averageLosses env offset ps m = .num ((ps.map g).sum / ps.length) := by
  unfold averageLosses
  rw [total_num _ g]
  · have : ps.length ≠ 0 := by simpa using hne
    simp only [over, this, if_false]
  · intro p hp
    obtain ⟨e, es, e1, e2⟩ := h p hp
    unfold lossesAt frequencyOf
    rw [e1]
    simpa using e2

/-- **C307.** Every magnetic is tried with each of the ten best powder materials, and with nothing else; its score stays. -/
theorem powder_tried (env : Env K) (c : List Material) (k : String) (a : Application) (ps : List (Point K)) (l out : List (Magnetic × K))
    (h : addPowder env c k a ps l = .ok out) :
    ∃ ms, powderRanking env c k a ps = .ok ms ∧
      (∀ q, q ∈ out ↔ ∃ p ∈ l, ∃ w ∈ ms.take 10, q = (assign w p.1, p.2)) ∧ out.length = l.length * min 10 ms.length := by
  unfold addPowder at h
  rw [Maxima.bind_ok] at h
  obtain ⟨ms, h1, h2⟩ := h
  simp only [Out.ok.injEq] at h2
  subst h2
  refine ⟨ms, h1, ?_, ?_⟩
  · intro q
    simp only [List.mem_flatMap, List.mem_map]
    constructor
    · rintro ⟨p, hp, w, hw, e⟩; exact ⟨p, hp, w, hw, e.symm⟩
    · rintro ⟨p, hp, w, hw, e⟩; exact ⟨p, hp, w, hw, e.symm⟩
  · rw [List.length_flatMap]
    simp

/-- **C307.** Ferrites by losses or by impedance: a magnetic with a material stays as it is; one with the placeholder is tried with the two best, and
with nothing else. -/
theorem ferrite_tried (env : Env K) (c : List Material) (k : String) (a : Application) (ps : List (Point K)) (required : Option (List K))
    (l out : List (Magnetic × K))
    (h : addFerriteByLosses env c k a ps l = .ok out ∨ addFerriteByImpedance env c k a required l = .ok out) :
    ∃ ms, (ferriteRanking env c k a ps = .ok ms ∨ impedanceRanking env c k a required = .ok ms) ∧
      ∀ q, q ∈ out ↔ (q ∈ l ∧ q.1.material ≠ "Dummy") ∨ ∃ p ∈ l, p.1.material = "Dummy" ∧ ∃ w ∈ ms.take 2, q = (assign w p.1, p.2) := by
  have key : ∀ ms : List Material, ∀ q, q ∈ Adviser.fanOut (K := K) isDummy assign ms 2 l ↔
      (q ∈ l ∧ q.1.material ≠ "Dummy") ∨ ∃ p ∈ l, p.1.material = "Dummy" ∧ ∃ w ∈ ms.take 2, q = (assign w p.1, p.2) := by
    intro ms q
    have htake : ms.take (min 2 ms.length) = ms.take 2 := by
      rcases Nat.le_total 2 ms.length with h | h
      · rw [Nat.min_eq_left h]
      · rw [Nat.min_eq_right h, List.take_of_length_le (le_refl _), List.take_of_length_le h]
    simp only [Adviser.fanOut, htake, List.mem_flatMap]
    constructor
    · rintro ⟨p, hp, hq⟩
      by_cases hd : isDummy p.1 = true
      · rw [if_pos hd] at hq
        obtain ⟨w, hw, rfl⟩ := List.mem_map.1 hq
        exact Or.inr ⟨p, hp, by simpa [isDummy] using hd, w, hw, rfl⟩
      · rw [if_neg hd] at hq
        rw [List.mem_singleton] at hq
        subst hq
        exact Or.inl ⟨hp, by simpa [isDummy] using hd⟩
    · rintro (⟨h1, h2⟩ | ⟨p, hp, hd, w, hw, rfl⟩)
      · exact ⟨q, h1, by rw [if_neg (by simpa [isDummy] using h2)]; simp⟩
      · exact ⟨p, hp, by rw [if_pos (by simpa [isDummy] using hd)]; exact List.mem_map.2 ⟨w, hw, rfl⟩⟩
  rcases h with h | h
  · unfold addFerriteByLosses at h
    rw [Maxima.bind_ok] at h
    obtain ⟨ms, h1, h2⟩ := h
    simp only [Out.ok.injEq] at h2
    subst h2
    exact ⟨ms, Or.inl h1, key ms⟩
  · unfold addFerriteByImpedance at h
    rw [Maxima.bind_ok] at h
    obtain ⟨ms, h1, h2⟩ := h
    simp only [Out.ok.injEq] at h2
    subst h2
    exact ⟨ms, Or.inr h1, key ms⟩

/-- **C307.** Trying a material names the magnetic after it: copies with materials of different names have different names and, with manufacturer
information, different references. -/
theorem names_differ (v w : Material) (m : Magnetic) (h : v.name ≠ w.name) :
    (assign v m).core ≠ (assign w m).core ∧ (m.info.isSome → reference (assign v m) ≠ reference (assign w m)) := by
  have cancel : ∀ s t r : String, s ++ " " ++ r = t ++ " " ++ r → s = t := by
    intro s t r e
    have := congrArg String.toList e
    simp only [String.toList_append, List.append_assoc] at this
    exact String.ext (List.append_cancel_right this)
  refine ⟨?_, ?_⟩
  · intro e
    simp only [assign, Option.some.injEq] at e
    exact h (cancel _ _ _ e)
  · intro hi e
    obtain ⟨i, hi⟩ := Option.isSome_iff_exists.1 hi
    simp only [assign, reference, hi, Option.map_some] at e
    exact h (cancel _ _ _ e)

/-- **C308.** Powder materials are tried exactly when the settings allow them, the application is power and the largest direct current of the first winding is
over 1 mA. -/
theorem powder_included (allowed : Bool) (a : Application) (ps : List (Point K)) :
    includePowder allowed a ps = .ok true ↔ allowed = true ∧ a = .power ∧ ∃ b, Maxima.currentBias 0 ps = .ok b ∧ 1 / 1000 < b := by
  unfold includePowder
  by_cases h1 : allowed = false
  · simp [h1]
  · rw [if_neg h1]
    by_cases h2 : a = .power
    · rw [if_neg (by simpa using h2), Maxima.bind_ok]
      simp only [Out.ok.injEq, decide_eq_true_iff, gt_iff_lt]
      exact ⟨fun h => ⟨by simpa using h1, h2, h⟩, fun h => h.2.2⟩
    · rw [if_pos h2]
      simp [h2]

/-- **C308.** A direct current that flows backwards, however large, does not count. -/
theorem backwards_no_powder (allowed : Bool) (a : Application) (ps : List (Point K)) (hne : ps ≠ [])
    (h : ∀ p ∈ ps, ∃ e s q, p.windings[0]? = some e ∧ e.current = some s ∧ s.processed = some q ∧ q.offset < 0) :
    includePowder allowed a ps = .ok false := by
  unfold includePowder
  split_ifs with h1 h2
  · rfl
  · rfl
  · rw [Maxima.backwards_is_zero 0 ps hne h]
    simp only [Out.bind, Out.ok.injEq, decide_eq_false_iff_not, not_lt, gt_iff_lt]
    positivity

/-! ## Cases -/

/-- Losses that are a power of the amplitude, as those of Steinmetz (src/physical_models/CoreLosses.cpp 879-906): the amplitude is the peak less the offset. -/
def powers (k : Material → ℚ) (beta : Material → ℕ) : Env ℚ :=
  ⟨fun m offset f => .num (k m * f * |18 / 100 - offset| ^ beta m), fun _ _ _ => .throws, fun m _ => .num (k m)⟩

/-- Two materials of the same maker, the second of them a ferrite. -/
def first : Material := ⟨"A", "M", false, some [.power], false, false, [.steinmetz]⟩
def second : Material := ⟨"B", "M", true, some [.power], false, false, [.steinmetz]⟩

/-- The first has losses `B ^ 2`, the second `2 B`. -/
def env : Env ℚ := powers (fun m => if m = first then 1 else 2) (fun m => if m = first then 2 else 1)

/-- An operating point with a direct current. -/
def point (bias : ℚ) : Point ℚ := ⟨[⟨100000, none, some ⟨some ⟨none, none, none, bias⟩, none⟩⟩], 25⟩

/-- Case of the theorems on rankings. -/
example : ferriteRanking env [first, second] "M" .power [point 10] = .ok [first, second] ∧
    powderRanking env [first, second] "M" .power [point (1 / 100)] = .ok [first, second] := by decide +kernel

/-- Case of `powder_tried` and `ferrite_tried`. -/
example : (∃ out, addPowder env [first, second] "M" .power [point 10] [(⟨none, "Dummy", some none⟩, 1)] = .ok out ∧ out.length = 2) ∧
    ∃ out, addFerriteByLosses env [first, second] "M" .power [point 10] [(⟨none, "Dummy", some none⟩, 1), (⟨none, "N87", none⟩, 2)] = .ok out ∧
      out.length = 3 :=
  ⟨⟨[(assign second ⟨none, "Dummy", some none⟩, 1), (assign first ⟨none, "Dummy", some none⟩, 1)], by decide +kernel, by decide +kernel⟩,
    [(assign first ⟨none, "Dummy", some none⟩, 1), (assign second ⟨none, "Dummy", some none⟩, 1), (⟨none, "N87", none⟩, 2)], by decide +kernel,
    by decide +kernel⟩

/-- Case of `average_mean`. -/
example : averageLosses env 0 [point 0, point 0] first = .num (100000 * (18 / 100) ^ 2) := by decide +kernel

/-- Case of `impedance_ranked`. -/
example : impedanceRanking env [first, second] "M" .power (some [100000]) = .ok [second, first] := by decide +kernel

/-- Case of `backwards_no_powder`. -/
example : includePowder true .power [point (-10)] = .ok false ∧ includePowder true .power [point 10] = .ok true := by decide +kernel

/-- **C306.** The direct current is taken for a flux density: with the same swing of flux density, 10 A put the second material ahead. -/
theorem amperes_as_teslas : powderRanking env [first, second] "M" .power [point 10] = .ok [second, first] ∧
    powderRanking env [first, second] "M" .power [point (1 / 100)] = .ok [first, second] := by decide +kernel

/-- **C307.** A ferrite may be tried as powder: the maker is looked at, not what the material is. -/
theorem ferrite_as_powder : ∃ out, addPowder env [first, second] "M" .power [point 10] [(⟨none, "Dummy", none⟩, 1)] = .ok out ∧
    (out.map fun q => q.1.material).head? = some second.name ∧ second.ferrite = true :=
  ⟨[(assign second ⟨none, "Dummy", none⟩, 1), (assign first ⟨none, "Dummy", none⟩, 1)], by decide +kernel, by decide +kernel, by decide +kernel⟩

/-- A maker of materials for power only, and a material for suppression of another. -/
def choke : Material := ⟨"C", "N", true, some [.suppression], true, false, []⟩

/-- **C305.** If the preferred maker has materials but none suits the application, there are no candidates, although the catalogue has one. -/
theorem preferred_hides : candidates [first, choke] "M" .suppression = [] ∧ suits choke .suppression = true ∧
    candidates [choke] "M" .suppression = [choke] := by decide +kernel

/-- **C306.** One material whose losses are not a number makes the ranking undefined. -/
theorem nan_undefined : powderRanking (K := ℚ) ⟨fun m _ _ => if m = first then .nan else .num 1, fun _ _ _ => .throws, fun _ _ => .throws⟩
    [first, second] "M" .power [point 10] = .undefined := by decide +kernel

end Verif.Materials
