import Verif.Names.Model
import Verif.Winding.OrderProps
import Verif.Winding.TurnProps

/-! # Lemmas about names -/

namespace Verif.Names

open Verif.Winding

set_option linter.unusedSimpArgs false

/-! ## Reading a name from its end -/

theorem decimal_digits (n : Nat) : ∀ c ∈ decimal n, c.isDigit = true := by
  intro c hc
  exact Nat.isDigit_of_mem_toDigits (by decide) (by decide) hc

theorem decimal_inj {n m : Nat} (h : decimal n = decimal m) : n = m := by
  have := congrArg (fun d => Nat.ofDigitChars 10 d 0) h
  simpa [decimal, Nat.ofDigitChars_ten_toDigits] using this

theorem decimal_ne_nil (n : Nat) : decimal n ≠ [] := Nat.toDigits_ne_nil

/-- A character that is in neither end splits a list in one way. -/
theorem split_last {α : Type} {x : α} {a b d e : List α} (h : a ++ [x] ++ d = b ++ [x] ++ e) (hd : x ∉ d) (he : x ∉ e) :
    a = b ∧ d = e := by
  rw [List.append_assoc, List.append_assoc, List.append_eq_append_iff] at h
  rcases h with ⟨t, h1, h2⟩ | ⟨t, h1, h2⟩
  · cases t with
    | nil => simp at h1 h2; exact ⟨h1.symm, h2⟩
    | cons y t =>
      simp at h2
      exact absurd (h2.2 ▸ by simp) hd
  · cases t with
    | nil => simp at h1 h2; exact ⟨h1, h2.symm⟩
    | cons y t =>
      simp at h2
      exact absurd (h2.2 ▸ by simp) he

theorem blank_not_digit (n : Nat) : ' ' ∉ decimal n := fun h => absurd (decimal_digits n _ h) (by decide)

theorem number_last {a b : Name} {n m : Nat} (h : a ++ [' '] ++ decimal n = b ++ [' '] ++ decimal m) : a = b ∧ n = m := by
  obtain ⟨h1, h2⟩ := split_last h (blank_not_digit n) (blank_not_digit m)
  exact ⟨h1, decimal_inj h2⟩

theorem section_blank : " section ".toList = " section".toList ++ [' '] := by decide

theorem section_name_inj {a b : Name} {n m : Nat} (h : sectionName a n = sectionName b m) : a = b ∧ n = m := by
  have e : ∀ (x : Name) (k : Nat), sectionName x k = (x ++ " section".toList) ++ [' '] ++ decimal k := by
    intro x k
    simp [sectionName]
  rw [e, e] at h
  obtain ⟨h1, h2⟩ := number_last h
  exact ⟨List.append_cancel_right h1, h2⟩

theorem insulation_name_inj {a b a' b' : Name} {n m : Nat} (h : insulationName a b n = insulationName a' b' m) :
    a ++ " and ".toList ++ b = a' ++ " and ".toList ++ b' ∧ n = m := by
  unfold insulationName at h
  rw [section_blank] at h
  generalize "Insulation between ".toList = p at h
  generalize " and ".toList = q at h ⊢
  generalize " section".toList = r at h
  have h' : (p ++ (a ++ q ++ b) ++ r) ++ [' '] ++ decimal n = (p ++ (a' ++ q ++ b') ++ r) ++ [' '] ++ decimal m := by
    simpa only [List.append_assoc] using h
  obtain ⟨h1, h2⟩ := number_last h'
  exact ⟨List.append_cancel_left (List.append_cancel_right h1), h2⟩

theorem section_insulation {w a b : Name} {n m : Nat} (h : sectionName w n = insulationName a b m) :
    w = "Insulation between ".toList ++ a ++ " and ".toList ++ b := by
  unfold sectionName insulationName at h
  rw [section_blank] at h
  generalize "Insulation between ".toList = p at h ⊢
  generalize " and ".toList = q at h ⊢
  generalize " section".toList = r at h
  have h' : (w ++ r) ++ [' '] ++ decimal n = ((p ++ a ++ q ++ b) ++ r) ++ [' '] ++ decimal m := by
    simpa only [List.append_assoc] using h
  exact List.append_cancel_right (number_last h').1

theorem layer_name_inj {a b : Name} {p q : Bool} {n m : Nat} (ha : ∃ c ∈ a.getLast?, c.isDigit = true)
    (hb : ∃ c ∈ b.getLast?, c.isDigit = true) (h : layerName a p n = layerName b q m) : a = b ∧ p = q ∧ n = m := by
  have e : ∀ (x : Name) (r : Bool) (k : Nat), layerName x r k =
      ((x ++ if r then [] else " insulation".toList) ++ " layer".toList) ++ [' '] ++ decimal k := by
    intro x r k
    cases r <;> simp [layerName]
  rw [e, e] at h
  obtain ⟨h1, h2⟩ := number_last h
  have h3 := List.append_cancel_right h1
  have last : ∀ (x : Name), (x ++ " insulation".toList).getLast? = some 'n' := by
    intro x
    rw [List.getLast?_append]
    rfl
  cases p <;> cases q
  · exact ⟨List.append_cancel_right h3, rfl, h2⟩
  · exfalso
    obtain ⟨c, hc, hd⟩ := hb
    simp only [if_true, Bool.false_eq_true, if_false, List.append_nil] at h3
    rw [← h3, last] at hc
    simp at hc
    subst hc
    exact absurd hd (by decide)
  · exfalso
    obtain ⟨c, hc, hd⟩ := ha
    simp only [if_true, Bool.false_eq_true, if_false, List.append_nil] at h3
    rw [h3, last] at hc
    simp at hc
    subst hc
    exact absurd hd (by decide)
  · exact ⟨List.append_cancel_right h3, rfl, h2⟩

theorem last_of_decimal (a : Name) (n : Nat) : ∃ c ∈ (a ++ decimal n).getLast?, c.isDigit = true := by
  rw [List.getLast?_append]
  cases h : (decimal n).getLast? with
  | none => exact absurd (List.getLast?_eq_none_iff.mp h) (decimal_ne_nil n)
  | some c => exact ⟨c, by simp, decimal_digits n c (List.mem_of_getLast? h)⟩

theorem section_name_last (a : Name) (n : Nat) : ∃ c ∈ (sectionName a n).getLast?, c.isDigit = true :=
  last_of_decimal _ n

theorem insulation_name_last (a b : Name) (n : Nat) : ∃ c ∈ (insulationName a b n).getLast?, c.isDigit = true :=
  last_of_decimal _ n

theorem turn_name_inj {a b : Name} {p q n m : Nat} (h : turnName a p n = turnName b q m) : a = b ∧ p = q ∧ n = m := by
  have e : ∀ (x : Name) (r k : Nat), turnName x r k =
      ((x ++ " parallel".toList) ++ [' '] ++ decimal r ++ " turn".toList) ++ [' '] ++ decimal k := by
    intro x r k
    simp [turnName]
  rw [e, e] at h
  obtain ⟨h1, h2⟩ := number_last h
  obtain ⟨h3, h4⟩ := number_last (List.append_cancel_right h1)
  exact ⟨List.append_cancel_right h3, h4, h2⟩

theorem station_name_inj {a b : Name} {p q : Nat} {x y : Nat × Bool} (h : stationName a p x = stationName b q y) :
    a = b ∧ p = q ∧ x = y := by
  obtain ⟨n, s⟩ := x
  obtain ⟨m, t⟩ := y
  have e : ∀ (x : Name) (r k : Nat), stationName x r (k, true) = turnName x r k ++ "_ending".toList := by
    intro x r k
    simp [stationName, turnName]
  have e' : ∀ (x : Name) (r k : Nat), stationName x r (k, false) = turnName x r k := by
    intro x r k
    simp [stationName, turnName]
  have last : ∀ (x : Name), (x ++ "_ending".toList).getLast? = some 'g' := by
    intro x
    rw [List.getLast?_append]
    rfl
  have dl : ∀ (x : Name) (r k : Nat), (turnName x r k).getLast? ≠ some 'g' := by
    intro x r k hk
    obtain ⟨c, hc, hd⟩ := last_of_decimal (x ++ " parallel ".toList ++ decimal r ++ " turn ".toList) k
    change c ∈ (turnName x r k).getLast? at hc
    rw [hk] at hc
    simp at hc
    subst hc
    exact absurd hd (by decide)
  cases s <;> cases t
  · rw [e', e'] at h
    obtain ⟨h1, h2, h3⟩ := turn_name_inj h
    exact ⟨h1, h2, by rw [h3]⟩
  · rw [e', e] at h
    exact absurd (by rw [h]; exact last _) (dl a p n)
  · rw [e', e] at h
    exact absurd (by rw [← h]; exact last _) (dl b q m)
  · rw [e, e] at h
    obtain ⟨h1, h2, h3⟩ := turn_name_inj (List.append_cancel_right h)
    exact ⟨h1, h2, by rw [h3]⟩

/-- A name without " and" ends at the first " and " after it. -/
theorem and_first {a b x y : Name} (ha : ¬ " and".toList <:+: a) (hb : ¬ " and".toList <:+: b)
    (h : a ++ " and ".toList ++ x = b ++ " and ".toList ++ y) : a = b := by
  have key : ∀ (a b x y : Name), ¬ " and".toList <:+: b → a ++ " and ".toList ++ x = b ++ " and ".toList ++ y →
      ∀ t, b = a ++ t → t = [] := by
    intro a b x y hb h t ht
    subst ht
    simp only [List.append_assoc] at h
    have h1 := List.append_cancel_left h
    match t, h1, hb with
    | [], _, _ => rfl
    | [c], h1, _ => simp at h1
    | [c, d], h1, _ => simp at h1
    | [c, d, e], h1, _ => simp at h1
    | c :: d :: e :: f :: t, h1, hb =>
      exfalso
      simp at h1
      obtain ⟨rfl, rfl, rfl, rfl, _⟩ := h1
      exact hb ⟨a, t, by simp⟩
  have hab : a <+: b ∨ b <+: a := by
    apply List.prefix_or_prefix_of_prefix (l₃ := a ++ " and ".toList ++ x)
    · rw [List.append_assoc]; exact List.prefix_append _ _
    · rw [h, List.append_assoc]; exact List.prefix_append _ _
  rcases hab with ⟨t, ht⟩ | ⟨t, ht⟩
  · have := key a b x y hb h t ht.symm
    subst this
    simpa using ht
  · have := key b a y x ha h.symm t ht.symm
    subst this
    simpa using ht.symm

/-! ## Sections -/

/-- What the name of a section says: its winding and number, or the windings around the insulation and its place. -/
inductive Tag where
  | conduction (w i : Nat)
  | insulation (a b k : Nat)
  deriving DecidableEq

/-- The name a tag stands for. -/
def Tag.name (names : Nat → Name) : Tag → Name
  | .conduction w i => sectionName (names w) i
  | .insulation a b k => insulationName (names a) (names b) k

/-- The tags of the entries of a group. -/
def entryTags (ins : Nat → Nat → Option (ℚ × ℚ)) (first : Option Nat) :
    List Entry → Option Nat → Nat → (Nat → Nat) → List Tag
  | [], _, _, _ => []
  | .cond w _ :: rest, _, k, count =>
    .conduction w (count w) :: entryTags ins first rest (some w) (k + 1) (upd count w (count w + 1))
  | .ins :: rest, prev, k, count =>
    let next := match rest with
      | e :: _ => e.winding
      | [] => first
    match prev, next with
    | some a, some b =>
      (if (ins a b).isSome then [.insulation a b k] else []) ++ entryTags ins first rest none (k + 1) count
    | _, _ => entryTags ins first rest none (k + 1) count

theorem entryNames_tags (names : Nat → Name) (ins : Nat → Nat → Option (ℚ × ℚ)) (first : Option Nat) :
    ∀ (es : List Entry) (prev : Option Nat) (k : Nat) (count : Nat → Nat),
      entryNames names ins first es prev k count = (entryTags ins first es prev k count).map (Tag.name names)
  | [], _, _, _ => rfl
  | .cond w sp :: rest, prev, k, count => by
    rw [entryNames, entryTags, List.map_cons, entryNames_tags names ins first rest]
    rfl
  | .ins :: rest, prev, k, count => by
    unfold entryNames entryTags
    rcases prev with _ | a
    · exact entryNames_tags names ins first rest _ _ _
    · rcases rest with _ | ⟨e, r⟩
      · rcases first with _ | b
        · rfl
        · simp only
          rw [List.map_append, entryNames_tags names ins _ _]
          split <;> rfl
      · rcases e with ⟨b, sp⟩ | _
        · simp only [Entry.winding]
          rw [List.map_append, entryNames_tags names ins first (.cond b sp :: r)]
          split <;> rfl
        · exact entryNames_tags names ins first (.ins :: r) _ _ _

/-- Tags come in order: numbers of each winding from what it has, insulation from the place. -/
theorem entryTags_bounds (ins : Nat → Nat → Option (ℚ × ℚ)) (first : Option Nat) :
    ∀ (es : List Entry) (prev : Option Nat) (k : Nat) (count : Nat → Nat),
      (∀ w i, Tag.conduction w i ∈ entryTags ins first es prev k count → count w ≤ i ∧ w ∈ condWindings es) ∧
      (∀ a b j, Tag.insulation a b j ∈ entryTags ins first es prev k count →
        k ≤ j ∧ (prev = some a ∨ a ∈ condWindings es)) ∧
      (entryTags ins first es prev k count).Nodup
  | [], _, _, _ => by simp [entryTags]
  | .cond w sp :: rest, prev, k, count => by
    obtain ⟨i1, i2, i3⟩ := entryTags_bounds ins first rest (some w) (k + 1) (upd count w (count w + 1))
    rw [entryTags]
    refine ⟨?_, ?_, ?_⟩
    · intro v i hv
      rcases List.mem_cons.mp hv with h | h
      · simp only [Tag.conduction.injEq] at h
        obtain ⟨rfl, rfl⟩ := h
        exact ⟨le_refl _, by simp [condWindings]⟩
      · obtain ⟨h1, h2⟩ := i1 v i h
        refine ⟨?_, by simp [condWindings, h2]⟩
        unfold upd at h1
        split at h1
        · rename_i e; subst e; omega
        · exact h1
    · intro a b j hv
      rcases List.mem_cons.mp hv with h | h
      · simp at h
      · obtain ⟨h1, h2⟩ := i2 a b j h
        refine ⟨by omega, Or.inr ?_⟩
        rw [condWindings, List.mem_cons]
        rcases h2 with h2 | h2
        · simp only [Option.some.injEq] at h2; exact Or.inl h2.symm
        · exact Or.inr h2
    · rw [List.nodup_cons]
      refine ⟨fun h => ?_, i3⟩
      have := (i1 w _ h).1
      rw [upd_same] at this
      omega
  | .ins :: rest, prev, k, count => by
    obtain ⟨i1, i2, i3⟩ := entryTags_bounds ins first rest none (k + 1) count
    unfold entryTags
    simp only
    split
    · rename_i a b _ _
      refine ⟨?_, ?_, ?_⟩
      · intro v i hv
        rcases List.mem_append.mp hv with h | h
        · split at h <;> simp at h
        · exact i1 v i h
      · intro a' b' j hv
        rcases List.mem_append.mp hv with h | h
        · split at h
          · simp at h
            obtain ⟨rfl, rfl, rfl⟩ := h
            exact ⟨le_refl _, Or.inl rfl⟩
          · simp at h
        · obtain ⟨h1, h2⟩ := i2 a' b' j h
          refine ⟨by omega, Or.inr ?_⟩
          rcases h2 with h2 | h2
          · simp at h2
          · exact h2
      · split
        · rw [List.singleton_append, List.nodup_cons]
          refine ⟨fun h => ?_, i3⟩
          have := (i2 _ _ _ h).1
          omega
        · simpa using i3
    · refine ⟨i1, ?_, i3⟩
      intro a' b' j hv
      obtain ⟨h1, h2⟩ := i2 a' b' j hv
      refine ⟨by omega, Or.inr ?_⟩
      rcases h2 with h2 | h2
      · simp at h2
      · exact h2

/-- A section has the winding and number a tag says. -/
def Tagged (sec : Section) : Tag → Prop
  | .conduction w i => sec.winding = some w ∧ sec.index = i
  | .insulation _ _ j => sec.winding = none ∧ sec.index = j

theorem windInsulation_tags (c : Ctx) (g : Group) (a b k : Nat) (s : St) :
    List.Forall₂ Tagged (windInsulation c g a b k s).1
      (if (c.insulation a b).isSome then [Tag.insulation a b k] else []) := by
  unfold windInsulation
  split
  · rename_i hn
    simp [hn]
  · rename_i d hd
    simp [hd, Tagged]

/-- The sections wound are those named: numbers agree, and windings. -/
theorem windEntries_tags (c : Ctx) (g : Group) (plan : Plan) (first : Option Nat) :
    ∀ (es : List Entry) (prev : Option Nat) (k : Nat) (s : St) (x : List Section × St),
      windEntries c g plan first es prev k s = .ok x →
      List.Forall₂ Tagged x.1 (entryTags c.insulation first es prev k s.count)
  | [], prev, k, s, x, h => by
    simp only [windEntries, Res.ok.injEq] at h
    subst h
    exact List.Forall₂.nil
  | .cond w space :: rest, prev, k, s, x, h => by
    unfold windEntries at h
    obtain ⟨y, hy, h⟩ := bind_ok h
    obtain ⟨z, hz, h⟩ := bind_ok h
    simp only [Res.ok.injEq] at h
    subst h
    obtain ⟨h1, h2, h3⟩ := windSection_head hy
    have ih := windEntries_tags c g plan first rest _ _ _ z hz
    rw [h3] at ih
    rw [entryTags]
    exact List.Forall₂.cons ⟨h1, h2⟩ ih
  | .ins :: rest, prev, k, s, x, h => by
    unfold windEntries at h
    obtain ⟨_, h⟩ := ite_ok (by simp) h
    simp only at h
    unfold entryTags
    rcases prev with _ | a
    · exact windEntries_tags c g plan first rest _ _ s x h
    · rcases rest with _ | ⟨e, r⟩
      · rcases first with _ | b
        · exact windEntries_tags c g plan none [] _ _ s x h
        · simp only at h ⊢
          obtain ⟨y, hy, h⟩ := bind_ok h
          simp only [Res.ok.injEq] at h
          subst h
          have ih := windEntries_tags c g plan (some b) [] _ _ _ y hy
          rw [windInsulation_count] at ih
          exact List.rel_append (windInsulation_tags c g a b k s) ih
      · rcases e with ⟨b, sp⟩ | _
        · simp only [Entry.winding] at h ⊢
          obtain ⟨y, hy, h⟩ := bind_ok h
          simp only [Res.ok.injEq] at h
          subst h
          have ih := windEntries_tags c g plan first (.cond b sp :: r) _ _ _ y hy
          rw [windInsulation_count] at ih
          exact List.rel_append (windInsulation_tags c g a b k s) ih
        · exact windEntries_tags c g plan first (.ins :: r) _ _ s x h

/-! ## Turns and layers -/

theorem placeTurns_numbers {env : TurnEnv} {l : LayerIn} {k : Nat} {p : Places} :
    ∀ (order : List Nat) (i : Nat) (count : Nat → Nat → Nat) (r : List Winding.Turn × (Nat → Nat → Nat)),
      placeTurns env l k p order i count = .ok r →
      (∀ w j, count w j ≤ r.2 w j) ∧
      (∀ t ∈ r.1, count t.winding t.parallel ≤ t.number ∧ t.number < r.2 t.winding t.parallel) ∧
      r.1.Pairwise (fun a b => ¬ (a.winding = b.winding ∧ a.parallel = b.parallel ∧ a.number = b.number))
  | [], i, count, r, h => by
    simp only [placeTurns, Res.ok.injEq] at h
    subst h
    simp
  | j :: rest, i, count, r, h => by
    unfold placeTurns at h
    obtain ⟨c, hc, h⟩ := bind_ok h
    split at h
    · obtain ⟨y, hy, h⟩ := bind_ok h
      simp only [Res.ok.injEq] at h
      subst h
      obtain ⟨i1, i2, i3⟩ := placeTurns_numbers rest _ _ y hy
      have hle : ∀ w q, count w q ≤ upd count l.winding (upd (count l.winding) j (count l.winding j + 1)) w q := by
        intro w q
        unfold upd
        split
        · rename_i e; subst e
          simp only
          split
          · rename_i e; subst e; omega
          · exact le_refl _
        · exact le_refl _
      have hat : upd count l.winding (upd (count l.winding) j (count l.winding j + 1)) l.winding j =
          count l.winding j + 1 := by rw [upd_same, upd_same]
      refine ⟨fun w q => (hle w q).trans (i1 w q), ?_, ?_⟩
      · intro t ht
        rcases List.mem_cons.mp ht with e | e
        · subst e
          refine ⟨le_refl _, ?_⟩
          have := i1 l.winding j
          rw [hat] at this
          simp only
          omega
        · obtain ⟨h1, h2⟩ := i2 t e
          exact ⟨(hle _ _).trans h1, h2⟩
      · rw [List.pairwise_cons]
        refine ⟨?_, i3⟩
        rintro t ht ⟨e1, e2, e3⟩
        have h1 := (i2 t ht).1
        simp only at e1 e2 e3
        rw [← e1, ← e2, hat] at h1
        omega
    · simp at h

theorem windTurnsFrom_distinct (env : TurnEnv) : ∀ (ls : List LayerIn) (k : Nat) (s : OrderSt) (count : Nat → Nat → Nat)
    (ts : List Winding.Turn), windTurnsFrom env ls k s count = .ok ts →
    (∀ t ∈ ts, count t.winding t.parallel ≤ t.number) ∧
    ts.Pairwise (fun a b => ¬ (a.winding = b.winding ∧ a.parallel = b.parallel ∧ a.number = b.number))
  | [], k, s, count, ts, h => by
    simp only [windTurnsFrom, Res.ok.injEq] at h
    subst h
    simp
  | l :: ls, k, s, count, ts, h => by
    unfold windTurnsFrom at h
    obtain ⟨_, h⟩ := ite_ok (by simp) h
    obtain ⟨n, hn, h⟩ := bind_ok h
    obtain ⟨o, ho, h⟩ := bind_ok h
    obtain ⟨r, hr, h⟩ := bind_ok h
    obtain ⟨z, hz, h⟩ := bind_ok h
    simp only [Res.ok.injEq] at h
    subst h
    obtain ⟨p1, p2, p3⟩ := placeTurns_numbers _ _ _ r hr
    obtain ⟨q1, q2⟩ := windTurnsFrom_distinct env ls _ _ _ z hz
    refine ⟨?_, ?_⟩
    · intro t ht
      rcases List.mem_append.mp ht with e | e
      · exact (p2 t e).1
      · exact (p1 _ _).trans (q1 t e)
    · rw [List.pairwise_append]
      refine ⟨p3, q2, ?_⟩
      rintro a ha b hb ⟨e1, e2, e3⟩
      have h1 := (p2 a ha).2
      have h2 := q1 b hb
      rw [e1, e2] at h1
      omega

theorem layerLoop_distinct (env : LayerEnv) (s : SectionIn) (plan : LayerPlan) :
    ∀ (left : Nat) (rem : List ℚ) (c : ℚ × ℚ) (ls : List Layer), left ≤ plan.count →
      layerLoop env s plan left rem c = .ok ls →
      (∀ l ∈ ls, plan.count - left ≤ l.index) ∧
      ls.Pairwise (fun a b => ¬ (a.conduction = b.conduction ∧ a.index = b.index))
  | 0, rem, c, ls, _, h => by
    simp only [layerLoop, Res.ok.injEq] at h
    subst h
    simp
  | left + 1, rem, c, ls, hl, h => by
    unfold layerLoop at h
    obtain ⟨r, hr, h⟩ := bind_ok h
    obtain ⟨_, h⟩ := ite_ok (by simp) h
    simp only at h
    split at h
    · simp only [Res.ok.injEq] at h
      subst h
      simp [layerOf]
      omega
    · obtain ⟨rest, hrest, h⟩ := bind_ok h
      simp only [Res.ok.injEq] at h
      subst h
      obtain ⟨i1, i2⟩ := layerLoop_distinct env s plan left _ _ rest (by omega) hrest
      have hx : ∀ (d : ℚ × ℚ), (interlayerOf s plan.room (plan.count - (left + 1)) d).1 = [] ∨
          ∃ l, (interlayerOf s plan.room (plan.count - (left + 1)) d).1 = [l] ∧ l.conduction = false ∧
            l.index = plan.count - (left + 1) := by
        intro d
        unfold interlayerOf
        split
        · exact Or.inl rfl
        · exact Or.inr ⟨_, rfl, rfl, rfl⟩
      have hh : ∀ d, (layerOf env s plan (plan.count - (left + 1)) r.1 r.2 d).conduction = true ∧
          (layerOf env s plan (plan.count - (left + 1)) r.1 r.2 d).index = plan.count - (left + 1) :=
        fun d => ⟨rfl, rfl⟩
      rcases hx (halfStep s.orientation (plan.room.depth s.orientation) c) with e | ⟨l, e, e1, e2⟩
      · rw [e]
        simp only [List.cons_append, List.nil_append]
        refine ⟨?_, ?_⟩
        · intro l hm
          rcases List.mem_cons.mp hm with rfl | hm
          · rw [(hh _).2]
          · exact le_trans (by omega) (i1 l hm)
        · rw [List.pairwise_cons]
          refine ⟨?_, i2⟩
          rintro b hb ⟨_, e3⟩
          rw [(hh _).2] at e3
          have := i1 b hb
          omega
      · rw [e]
        simp only [List.cons_append, List.nil_append]
        refine ⟨?_, ?_⟩
        · intro l' hm
          rcases List.mem_cons.mp hm with rfl | hm
          · rw [(hh _).2]
          · rcases List.mem_cons.mp hm with rfl | hm
            · rw [e2]
            · exact le_trans (by omega) (i1 l' hm)
        · rw [List.pairwise_cons, List.pairwise_cons]
          refine ⟨?_, ?_, i2⟩
          · rintro b hb ⟨e3, e4⟩
            rw [(hh _).1] at e3
            rw [(hh _).2] at e4
            rcases List.mem_cons.mp hb with rfl | hb
            · rw [e1] at e3; simp at e3
            · have := i1 b hb
              omega
          · rintro b hb ⟨_, e4⟩
            have := i1 b hb
            omega

end Verif.Names
