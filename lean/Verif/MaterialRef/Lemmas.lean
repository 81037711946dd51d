import Verif.MaterialRef.Model
import Verif.Scoring.Props
import Mathlib.Algebra.Order.BigOperators.Group.List

/-! # Lemmas on the cross-referencer of core materials -/

namespace Verif.MaterialRef

set_option linter.unusedSimpArgs false
set_option linter.unusedSectionVars false
set_option linter.unusedVariables false

variable {K : Type} [Field K] [LinearOrder K] [IsStrictOrderedRing K]

/-- Descending totals. -/
def Descending (l : List (Material K × K)) : Prop := l.Pairwise (fun a b => b.2 ≤ a.2)

/-- The distance of a candidate to a reading of the reference. -/
def dist (temp : K) (d : Dimension) (r : K) (c : Material K) : K :=
  match c.reading temp d with
  | .number x => |r - x|
  | _ => 0

theorem rescore_spec (w : K) (hw : 0 ≤ w) (kept : List (Material K × K)) (s : Material K → K) :
    ∃ (c : K → K) (after : List (Material K × K)),
      rescore w kept (kept.map (fun p => s p.1)) = .ok after ∧
      after.Perm (kept.map (fun p => (p.1, p.2 + c (s p.1)))) ∧ Descending after ∧
      (∀ p ∈ kept, 0 ≤ c (s p.1) ∧ c (s p.1) ≤ w) ∧
      (∀ p ∈ kept, ∀ q ∈ kept, s p.1 ≤ s q.1 → c (s q.1) ≤ c (s p.1)) := by
  cases kept with
  | nil => exact ⟨fun _ => 0, [], rfl, by simp, List.Pairwise.nil, by simp, by simp⟩
  | cons k ks =>
    obtain ⟨mx, c, after, _, h2, h3, h4, h5, _, _⟩ := Scoring.cross_reranked (K := K) id (fun u v _ h => h) w hw true false
      (k :: ks) (s k.1) (ks.map (fun p => Scoring.Num.fin (s p.1)))
      (by simp only [List.mem_map]; rintro v ⟨p, _, rfl⟩; simp) (by simp) (by simp)
    have hmem : ∀ p ∈ k :: ks, Scoring.Num.fin (s p.1) ∈
        Scoring.Num.fin (s k.1) :: ks.map (fun p => Scoring.Num.fin (s p.1)) := by
      intro p hp
      rcases List.mem_cons.mp hp with h | h
      · subst h; simp
      · exact List.mem_cons_of_mem _ (List.mem_map_of_mem h)
    have hz : ∀ l : List (Material K × K), (l.zip (l.map (fun p => Scoring.Num.fin (s p.1)))).map
        (fun p => (p.1.1, p.1.2 + c p.2)) = l.map (fun p => (p.1, p.2 + c (.fin (s p.1)))) := by
      intro l
      induction l with
      | nil => rfl
      | cons x xs ih => simp only [List.map_cons, List.zip_cons_cons, ih]
    refine ⟨fun x => c (.fin x), after, ?_, ?_, h3.sorted, fun p hp => h4 _ (hmem p hp), fun p hp q hq h => ?_⟩
    · unfold rescore
      simp only [List.map_cons, List.map_map]
      rw [show (Scoring.Num.fin ∘ fun p : Material K × K => s p.1) = fun p => Scoring.Num.fin (s p.1) from rfl, h2]
    · have := h3.perm
      have e := hz (k :: ks)
      simp only [List.map_cons] at e this ⊢
      rw [e] at this
      exact this
    · exact h5 _ (hmem p hp) _ (hmem q hq) h

theorem plainLoop_some (temp : K) (d : Dimension) (r : K) (l : List (Material K × K)) : ∀ m : Memo K,
    (∀ p ∈ l, ∃ x, p.1.reading temp d = .number x) →
    (plainLoop temp d (some r) m l).2 = some (l.map (fun p => dist temp d r p.1)) := by
  induction l with
  | nil => intro m _; rfl
  | cons p l ih =>
    intro m h
    obtain ⟨c, t⟩ := p
    obtain ⟨x, hx⟩ := h (c, t) (by simp)
    simp only at hx
    unfold plainLoop
    simp only [hx]
    rw [ih _ (fun q hq => h q (by simp [hq]))]
    simp [dist, hx]

theorem plainLoop_none (temp : K) (d : Dimension) (ref : Option K) (l : List (Material K × K)) : ∀ m : Memo K,
    (∃ p ∈ l, ref = none ∨ ∀ x, p.1.reading temp d ≠ .number x) → (plainLoop temp d ref m l).2 = none := by
  induction l with
  | nil => intro m h; obtain ⟨p, hp, _⟩ := h; simp at hp
  | cons p l ih =>
    intro m h
    obtain ⟨c, t⟩ := p
    unfold plainLoop
    cases hc : c.reading temp d with
    | nan => rfl
    | raises => rfl
    | number x =>
      cases ref with
      | none => rfl
      | some r =>
        obtain ⟨q, hq, hq'⟩ := h
        rcases List.mem_cons.mp hq with e | e
        · subst e
          rcases hq' with h | h
          · simp at h
          · exact absurd hc (h x)
        · simp only []
          rw [ih _ ⟨q, e, hq'⟩]
          rfl

theorem cullLoop_some (temp : K) (d : Dimension) (r : K) (l : List (Material K × K)) : ∀ m : Memo K,
    (∀ p ∈ l, ∀ _ : p.1.reading temp d = .raises, False) →
    ∃ kept : List (Material K × K), (∀ p, p ∈ kept → ∃ x, p.1.reading temp d = .number x) ∧
      kept = l.filter (fun p => match p.1.reading temp d with | .nan => false | _ => true) ∧
      (cullLoop temp d r m l).2 = some (kept, kept.map (fun p => dist temp d r p.1)) := by
  induction l with
  | nil => intro m _; exact ⟨[], by simp, rfl, rfl⟩
  | cons p l ih =>
    intro m h
    obtain ⟨c, t⟩ := p
    cases hc : c.reading temp d with
    | raises => exact absurd hc (h (c, t) (by simp))
    | nan =>
      obtain ⟨kept, h1, h2, h3⟩ := ih m (fun q hq => h q (by simp [hq]))
      refine ⟨kept, h1, ?_, ?_⟩
      · rw [h2]; simp [hc]
      · unfold cullLoop; simp only [hc]; exact h3
    | number x =>
      obtain ⟨kept, h1, h2, h3⟩ := ih (m.record d c.name |r - x|) (fun q hq => h q (by simp [hq]))
      refine ⟨(c, t) :: kept, ?_, ?_, ?_⟩
      · intro p hp
        rcases List.mem_cons.mp hp with e | e
        · subst e; exact ⟨x, hc⟩
        · exact h1 p e
      · rw [h2]; simp [hc]
      · unfold cullLoop; simp only [hc]; rw [h3]; simp [dist, hc]

theorem cullLoop_none (temp : K) (d : Dimension) (r : K) (l : List (Material K × K)) : ∀ m : Memo K,
    (∃ p ∈ l, p.1.reading temp d = .raises) → (cullLoop temp d r m l).2 = none := by
  induction l with
  | nil => intro m h; obtain ⟨p, hp, _⟩ := h; simp at hp
  | cons p l ih =>
    intro m h
    obtain ⟨c, t⟩ := p
    obtain ⟨q, hq, hq'⟩ := h
    unfold cullLoop
    cases hc : c.reading temp d with
    | raises => rfl
    | nan =>
      rcases List.mem_cons.mp hq with e | e
      · subst e; simp only at hq'; rw [hc] at hq'; simp at hq'
      · exact ih m ⟨q, e, hq'⟩
    | number x =>
      rcases List.mem_cons.mp hq with e | e
      · subst e; simp only at hq'; rw [hc] at hq'; simp at hq'
      · simp only []; rw [ih _ ⟨q, e, hq'⟩]; rfl

end Verif.MaterialRef
