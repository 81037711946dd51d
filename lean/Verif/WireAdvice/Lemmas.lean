import Verif.WireAdvice.Model
import Mathlib.Tactic.Ring
import Mathlib.Tactic.Linarith
import Mathlib.Tactic.FieldSimp
import Mathlib.Tactic.Positivity

/-! # Lemmas about the filters of the wire adviser -/

set_option linter.unusedSectionVars false

namespace Verif.WireAdvice

open Verif.Scoring (Num)

theorem bind_ok {α β : Type} {x : Res α} {f : α → Res β} {b : β} : x.bind f = .ok b ↔ ∃ a, x = .ok a ∧ f a = .ok b := by
  cases x <;> simp [Res.bind]

@[simp] theorem ok_bind {α β : Type} (a : α) (f : α → Res β) : (Res.ok a).bind f = f a := rfl

theorem orThrow_ok {α : Type} {o : Option α} {a : α} : orThrow o = .ok a ↔ o = some a := by
  cases o <;> simp [orThrow]

variable {K : Type} [Field K] [LinearOrder K] [IsStrictOrderedRing K]

/-! ## The largest and the smallest -/

theorem greatest_spec : ∀ (xs : List K) (m : K), greatest m xs ∈ m :: xs ∧ ∀ x ∈ m :: xs, x ≤ greatest m xs
  | [], m => by simp [greatest]
  | x :: xs, m => by
    obtain ⟨h1, h2⟩ := greatest_spec xs (if m < x then x else m)
    unfold greatest
    refine ⟨?_, fun y hy => ?_⟩
    · rcases List.mem_cons.mp h1 with h | h
      · rw [h]; split_ifs <;> simp
      · exact List.mem_cons_of_mem _ (List.mem_cons_of_mem _ h)
    · have hm := h2 _ List.mem_cons_self
      rcases List.mem_cons.mp hy with rfl | hy
      · refine le_trans ?_ hm
        split_ifs with h
        · exact h.le
        · exact le_refl _
      · rcases List.mem_cons.mp hy with rfl | hy
        · refine le_trans ?_ hm
          split_ifs with h
          · exact le_refl _
          · exact not_lt.mp h
        · exact h2 y (List.mem_cons_of_mem _ hy)

theorem least_spec : ∀ (xs : List K) (m : K), least m xs ∈ m :: xs ∧ ∀ x ∈ m :: xs, least m xs ≤ x
  | [], m => by simp [least]
  | x :: xs, m => by
    obtain ⟨h1, h2⟩ := least_spec xs (if x < m then x else m)
    unfold least
    refine ⟨?_, fun y hy => ?_⟩
    · rcases List.mem_cons.mp h1 with h | h
      · rw [h]; split_ifs <;> simp
      · exact List.mem_cons_of_mem _ (List.mem_cons_of_mem _ h)
    · have hm := h2 _ List.mem_cons_self
      rcases List.mem_cons.mp hy with rfl | hy
      · refine le_trans hm ?_
        split_ifs with h
        · exact h.le
        · exact le_refl _
      · rcases List.mem_cons.mp hy with rfl | hy
        · refine le_trans hm ?_
          split_ifs with h
          · exact le_refl _
          · exact not_lt.mp h
        · exact h2 y (List.mem_cons_of_mem _ hy)

/-! ## One filter -/

/-- Is the candidate kept? -/
def passes (eval : Cand K → Res (Option (Num K))) (c : Cand K) : Bool :=
  match eval c with
  | .ok (some _) => true
  | _ => false

/-- The finite value a filter answers. -/
def raw (eval : Cand K → Res (Option (Num K))) (c : Cand K) : K :=
  match eval c with
  | .ok (some (.fin v)) => v
  | _ => 0

/-- The filter answers: not kept, or kept with a finite value. -/
def Answers (eval : Cand K → Res (Option (Num K))) (c : Cand K) : Prop :=
  eval c = .ok none ∨ ∃ v, eval c = .ok (some (.fin v))

/-- What a filter makes of a list, before sorting. -/
def added (invert : Bool) (eval : Cand K → Res (Option (Num K))) (l : List (Cand K × K)) : List (Cand K × K) :=
  (l.filter (fun c => passes eval c.1)).map fun c =>
    (c.1, c.2 + normal invert ((l.filter (fun c => passes eval c.1)).map fun c => raw eval c.1) (raw eval c.1))

theorem keep_finite (eval : Cand K → Res (Option (Num K))) : ∀ (l : List (Cand K × K)) (v : List ((Cand K × K) × K)),
    (keep eval l).bind finite = .ok v ↔
      (∀ c ∈ l, Answers eval c.1) ∧ v = (l.filter (fun c => passes eval c.1)).map fun c => (c, raw eval c.1)
  | [], v => by simp [keep, finite, eq_comm]
  | c :: cs, v => by
    have ih := keep_finite eval cs
    simp only [keep]
    cases h : eval c.1 with
    | throws => simp [Res.bind, Answers, h]
    | ub => simp [Res.bind, Answers, h]
    | ok r =>
      cases r with
      | none =>
        have hp : passes eval c.1 = false := by simp [passes, h]
        have ha : Answers eval c.1 := Or.inl h
        have e : ((Res.ok (none : Option (Num K))).bind fun r => (keep eval cs).bind fun rest =>
            Res.ok (push c rest r)).bind finite = (keep eval cs).bind finite := by
          cases keep eval cs <;> rfl
        rw [e, ih, List.filter_cons_of_neg (by simp [hp])]
        simp [ha]
      | some x =>
        have hp : passes eval c.1 = true := by simp [passes, h]
        rw [List.filter_cons_of_pos (by simpa using hp)]
        cases x with
        | fin y =>
          have ha : Answers eval c.1 := Or.inr ⟨y, h⟩
          have hr : raw eval c.1 = y := by simp [raw, h]
          have e : ((Res.ok (some (Num.fin y))).bind fun r => (keep eval cs).bind fun rest =>
              Res.ok (push c rest r)).bind finite =
              ((keep eval cs).bind finite).bind fun rest => Res.ok ((c, y) :: rest) := by
            cases keep eval cs <;> rfl
          rw [e, bind_ok]
          constructor
          · rintro ⟨a, h1, h2⟩
            obtain ⟨h3, h4⟩ := (ih a).mp h1
            simp only [Res.ok.injEq] at h2
            subst h2
            refine ⟨?_, ?_⟩
            · intro d hd
              rcases List.mem_cons.mp hd with rfl | hd
              · exact ha
              · exact h3 d hd
            · rw [h4, List.map_cons, hr]
          · rintro ⟨h1, h2⟩
            refine ⟨(cs.filter (fun c => passes eval c.1)).map fun c => (c, raw eval c.1), (ih _).mpr ⟨fun d hd => h1 d (List.mem_cons_of_mem _ hd), rfl⟩, ?_⟩
            rw [h2, List.map_cons, hr]
        | nan =>
          have ha : ¬ Answers eval c.1 := by simp [Answers, h]
          constructor
          · intro hh
            exfalso
            revert hh
            cases keep eval cs <;> simp [Res.bind, finite, push]
          · rintro ⟨h1, _⟩; exact absurd (h1 c List.mem_cons_self) ha
        | pinf =>
          have ha : ¬ Answers eval c.1 := by simp [Answers, h]
          constructor
          · intro hh
            exfalso
            revert hh
            cases keep eval cs <;> simp [Res.bind, finite, push]
          · rintro ⟨h1, _⟩; exact absurd (h1 c List.mem_cons_self) ha
        | ninf =>
          have ha : ¬ Answers eval c.1 := by simp [Answers, h]
          constructor
          · intro hh
            exfalso
            revert hh
            cases keep eval cs <;> simp [Res.bind, finite, push]
          · rintro ⟨h1, _⟩; exact absurd (h1 c List.mem_cons_self) ha

theorem step_eq (invert : Bool) (eval : Cand K → Res (Option (Num K))) (l out : List (Cand K × K)) :
    step invert eval l = .ok out ↔ (∀ c ∈ l, Answers eval c.1) ∧ out = sorted (added invert eval l) := by
  unfold step
  have e : ((keep eval l).bind fun k => (finite k).bind fun v => Res.ok (rank invert v)) =
      ((keep eval l).bind finite).bind fun v => Res.ok (rank invert v) := by cases keep eval l <;> rfl
  rw [e, bind_ok]
  have hr : ∀ v, v = (l.filter (fun c => passes eval c.1)).map (fun c => (c, raw eval c.1)) → rank invert v = sorted (added invert eval l) := by
    rintro v rfl
    unfold rank added
    simp [List.map_map, Function.comp_def]
  constructor
  · rintro ⟨v, h1, h2⟩
    obtain ⟨h3, h4⟩ := (keep_finite eval l v).mp h1
    simp only [Res.ok.injEq] at h2
    exact ⟨h3, h2 ▸ hr v h4⟩
  · rintro ⟨h1, rfl⟩
    exact ⟨_, (keep_finite eval l _).mpr ⟨h1, rfl⟩, by rw [hr _ rfl]⟩

theorem sorted_perm (l : List (Cand K × K)) : (sorted l).Perm l := List.perm_insertionSort _ l

theorem sorted_pairwise (l : List (Cand K × K)) : (sorted l).Pairwise (fun a b => b.2 ≤ a.2) :=
  haveI : Std.Total (fun a b : Cand K × K => b.2 ≤ a.2) := ⟨fun a b => le_total _ _⟩
  haveI : IsTrans (Cand K × K) (fun a b => b.2 ≤ a.2) := ⟨fun a b c h1 h2 => le_trans h2 h1⟩
  List.pairwise_insertionSort _ l

theorem step_cands {invert : Bool} {eval : Cand K → Res (Option (Num K))} {l out : List (Cand K × K)} (h : step invert eval l = .ok out) :
    (out.map Prod.fst).Perm ((l.map Prod.fst).filter (passes eval)) := by
  obtain ⟨_, rfl⟩ := (step_eq invert eval l out).mp h
  refine ((sorted_perm _).map Prod.fst).trans ?_
  unfold added
  rw [List.map_map, List.filter_map]
  exact List.Perm.refl _

theorem step_answers {invert : Bool} {eval : Cand K → Res (Option (Num K))} {l out : List (Cand K × K)} (h : step invert eval l = .ok out) :
    (∀ x ∈ l, Answers eval x.1) ∧ ∀ x ∈ out, eval x.1 = .ok (some (.fin (raw eval x.1))) := by
  have hp := step_cands h
  obtain ⟨ha, rfl⟩ := (step_eq invert eval l out).mp h
  refine ⟨ha, fun x hx => ?_⟩
  have h1 := hp.mem_iff.mp (List.mem_map_of_mem hx)
  obtain ⟨h2, h3⟩ := List.mem_filter.mp h1
  obtain ⟨y, hy, hyx⟩ := List.mem_map.mp h2
  rcases ha y hy with h4 | ⟨v, h4⟩
  · rw [hyx] at h4; simp [passes, h4] at h3
  · rw [hyx] at h4; simp [raw, h4]

/-! ## The order of the results -/

theorem metricLe_trans {a b c : Option K} (h1 : metricLe a b) (h2 : metricLe b c) : metricLe a c := by
  unfold metricLe at *
  cases a <;> cases b <;> cases c <;> simp_all
  exact le_trans h1 h2

theorem metricLe_total (a b : Option K) : metricLe a b ∨ metricLe b a := by
  unfold metricLe
  cases a <;> cases b <;> simp
  exact le_total _ _

theorem breakTies_perm (l : List (Cand K × K)) : (breakTies l).Perm l := List.perm_insertionSort _ l

theorem before_total (a b : Cand K × K) : before a b ∨ before b a := by
  rcases lt_trichotomy a.2 b.2 with h | h | h
  · exact Or.inr (Or.inl h)
  · rcases metricLe_total (metric a.1) (metric b.1) with m | m
    · exact Or.inl (Or.inr ⟨h, m⟩)
    · exact Or.inr (Or.inr ⟨h.symm, m⟩)
  · exact Or.inl (Or.inl h)

theorem before_trans {a b c : Cand K × K} (h1 : before a b) (h2 : before b c) : before a c := by
  rcases h1 with h1 | ⟨e1, m1⟩ <;> rcases h2 with h2 | ⟨e2, m2⟩
  · exact Or.inl (lt_trans h2 h1)
  · exact Or.inl (e2 ▸ h1)
  · exact Or.inl (e1.symm ▸ h2)
  · exact Or.inr ⟨e1.trans e2, metricLe_trans m1 m2⟩

theorem breakTies_pairwise (l : List (Cand K × K)) : (breakTies l).Pairwise before :=
  haveI : Std.Total (before : Cand K × K → Cand K × K → Prop) := ⟨before_total⟩
  haveI : IsTrans (Cand K × K) before := ⟨fun _ _ _ h1 h2 => before_trans h1 h2⟩
  List.pairwise_insertionSort _ l

end Verif.WireAdvice
