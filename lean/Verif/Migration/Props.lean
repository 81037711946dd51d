import Verif.Migration.Lemmas

/-! # C08: migrating a pre-1.0 document -/

namespace Verif.Migration

open Verif (Json)

/-! ## Specification -/

/-- One step into a document: a member of an object, or an element of an array. -/
inductive Step where
  | key (k : String)
  | index (i : Nat)
  deriving DecidableEq

/-- `x` is found in the document `j` at the end of a path. -/
inductive Occurs : Json → List Step → Json → Prop where
  | here (j : Json) : Occurs j [] j
  | member {ms : List (String × Json)} {k : String} {v x : Json} {p : List Step} :
      (k, v) ∈ ms → Occurs v p x → Occurs (.obj ms) (.key k :: p) x
  | element {l : List Json} {i : Nat} {v x : Json} {p : List Step} :
      l[i]? = some v → Occurs v p x → Occurs (.arr l) (.index i :: p) x

/-- The path does not go through a member called `cost`. -/
def NotCost (p : List Step) : Prop := Step.key "cost" ∉ p

/-- `new` is the published 1.0 spelling of the legacy spelling `old`. -/
def Published (old new : String) : Prop := (old, new) ∈ table

/-- `old` is a legacy spelling. -/
def Legacy (old : String) : Prop := ∃ new, Published old new

/-- A document that needs no migration: no legacy string outside costs, and no cost that is a bare number or a
string. -/
structure Current (j : Json) : Prop where
  strings : ∀ p s, NotCost p → Occurs j p (.str s) → ¬ Legacy s
  numbers : ∀ p n, NotCost p → ¬ Occurs j (p ++ [.key "cost"]) (.num n)
  texts : ∀ p s, NotCost p → ¬ Occurs j (p ++ [.key "cost"]) (.str s)

/-! ## Theorems -/

/-- C08: migrating twice is migrating once. -/
theorem migrate_idempotent (toDouble : String → String) (j : Json) :
    migrate toDouble (migrate toDouble j) = migrate toDouble j := migrate_idem toDouble j

theorem occurs_migrate (d : String → String) {j x : Json} {p : List Step} (hp : NotCost p)
    (h : Occurs j p x) : Occurs (migrate d j) p (migrate d x) := by
  induction h with
  | here j => exact .here _
  | @member ms k v x p hm _ ih =>
    have hk : k ≠ "cost" := fun e => hp (by simp [e])
    have hp' : NotCost p := fun e => hp (List.mem_cons_of_mem _ e)
    have e : migrate d (.obj ms) = .obj (migrateMembers d ms) := by simp only [migrate]
    rw [e]
    refine .member (v := migrate d v) ?_ (ih hp')
    rw [migrateMembers_eq, List.mem_map]
    exact ⟨(k, v), hm, by simp [hk]⟩
  | @element l i v x p hm _ ih =>
    have hp' : NotCost p := fun e => hp (List.mem_cons_of_mem _ e)
    have e : migrate d (.arr l) = .arr (migrateElements d l) := by simp only [migrate]
    rw [e]
    refine .element (v := migrate d v) ?_ (ih hp')
    rw [migrateElements_eq, List.getElem?_map, hm]
    rfl

theorem occurs_of_migrate (d : String → String) {j' y : Json} {p : List Step} (hp : NotCost p)
    (h : Occurs j' p y) : ∀ {j : Json}, j' = migrate d j → ∃ x, Occurs j p x ∧ y = migrate d x := by
  induction h with
  | here j' => intro j e; exact ⟨j, .here _, e⟩
  | @member ms k v x p hm _ ih =>
    intro j e
    have hk : k ≠ "cost" := fun e => hp (by simp [e])
    have hp' : NotCost p := fun e => hp (List.mem_cons_of_mem _ e)
    cases j with
    | obj ms' =>
      simp only [migrate, Json.obj.injEq] at e
      rw [e, migrateMembers_eq, List.mem_map] at hm
      obtain ⟨⟨k', v'⟩, hm, he⟩ := hm
      simp only [Prod.mk.injEq] at he
      obtain ⟨rfl, he⟩ := he
      rw [if_neg hk] at he
      obtain ⟨x', hx, hy⟩ := ih hp' he.symm
      exact ⟨x', .member hm hx, hy⟩
    | _ => simp [migrate] at e
  | @element l i v x p hm _ ih =>
    intro j e
    have hp' : NotCost p := fun e => hp (List.mem_cons_of_mem _ e)
    cases j with
    | arr l' =>
      simp only [migrate, Json.arr.injEq] at e
      rw [e, migrateElements_eq, List.getElem?_map] at hm
      cases hv : l'[i]? with
      | none => rw [hv] at hm; cases hm
      | some v' =>
        rw [hv] at hm
        simp only [Option.map_some, Option.some.injEq] at hm
        obtain ⟨x', hx, hy⟩ := ih hp' hm.symm
        exact ⟨x', .element hv hx, hy⟩
    | _ => simp [migrate] at e

theorem migrateString_spec (s : String) :
    Published s (migrateString s) ∨ (¬ Legacy s ∧ migrateString s = s) := by
  cases h : find table s with
  | none => right; exact ⟨fun ⟨t, ht⟩ => find_none h t ht, by unfold migrateString; rw [h]⟩
  | some t =>
    left
    have e : migrateString s = t := by unfold migrateString; rw [h]
    rw [e]; exact find_mem h

/-- C08: numbers, booleans and nulls outside costs stay where they are with their value, and every one in the
migrated document was there before. -/
theorem scalars_kept (d : String → String) {j x : Json} {p : List Step} (hp : NotCost p)
    (hx : x = .null ∨ (∃ b, x = .bool b) ∨ ∃ n, x = .num n) :
    Occurs (migrate d j) p x ↔ Occurs j p x := by
  have fix : migrate d x = x := by
    rcases hx with rfl | ⟨b, rfl⟩ | ⟨n, rfl⟩ <;> simp only [migrate]
  constructor
  · intro h
    obtain ⟨y, hy, e⟩ := occurs_of_migrate d hp h rfl
    have : y = x := by
      rcases hx with rfl | ⟨b, rfl⟩ | ⟨n, rfl⟩ <;> cases y <;> simp [migrate] at e ⊢ <;> exact e.symm
    rw [← this]; exact hy
  · intro h
    have := occurs_migrate d hp h
    rwa [fix] at this

/-- C08: a string outside costs becomes its published current spelling when it is a legacy spelling and stays
as it is otherwise; no other string appears. -/
theorem strings_respelled (d : String → String) {j : Json} {p : List Step} (hp : NotCost p) (t : String) :
    Occurs (migrate d j) p (.str t) ↔
      ∃ s, Occurs j p (.str s) ∧ (Published s t ∨ (¬ Legacy s ∧ t = s)) := by
  constructor
  · intro h
    obtain ⟨y, hy, e⟩ := occurs_of_migrate d hp h rfl
    cases y with
    | str s =>
      simp only [migrate, Json.str.injEq] at e
      refine ⟨s, hy, ?_⟩
      rw [e]; exact migrateString_spec s
    | _ => simp [migrate] at e
  · rintro ⟨s, hs, h⟩
    have := occurs_migrate d hp hs
    have e : migrate d (.str s) = .str (migrateString s) := by simp only [migrate]
    rw [e] at this
    suffices hst : migrateString s = t by rw [hst] at this; exact this
    rcases h with h | ⟨h, rfl⟩
    · unfold migrateString
      rw [table_functional _ h]
    · rcases migrateString_spec t with h' | h'
      · exact absurd ⟨_, h'⟩ h
      · exact h'.2

/-- The letters and digits of a spelling, in lower case. -/
def word (s : String) : List Char := (s.toList.filter Char.isAlphanum).map Char.toLower

/-- The values of MAS 1.0 that were renamed and not only respelled: pollution degrees, overvoltage categories and
the one topology whose name starts with a digit. -/
def renamed : List (String × String) :=
  [("4-Switch Buck-Boost Converter", "fourSwitchBuckBoostConverter"),
   ("P1", "PD1"), ("P2", "PD2"), ("P3", "PD3"),
   ("OVC-I", "I"), ("OVC-II", "II"), ("OVC-III", "III"), ("OVC-IV", "IV")]

/-- Checked on the whole table. -/
theorem published_same_word : ∀ e ∈ table, word e.1 = word e.2 ∨ e ∈ renamed := by decide +kernel

/-- C08: respelling does not change the value meant. Every string of the migrated document is the same word as the
string it replaces, up to blanks, punctuation and case, or its new name in the list of renamed values. -/
theorem strings_same_value (d : String → String) {j : Json} {p : List Step} (hp : NotCost p) {t : String}
    (h : Occurs (migrate d j) p (.str t)) :
    ∃ s, Occurs j p (.str s) ∧ (word s = word t ∨ (s, t) ∈ renamed) := by
  obtain ⟨s, hs, h | ⟨_, rfl⟩⟩ := (strings_respelled d hp t).mp h
  · exact ⟨s, hs, published_same_word (s, t) h⟩
  · exact ⟨t, hs, Or.inl rfl⟩

/-- C08: every array keeps its length. -/
theorem arrays_kept (d : String → String) {j : Json} {p : List Step} (hp : NotCost p) {l : List Json}
    (h : Occurs j p (.arr l)) : ∃ l', Occurs (migrate d j) p (.arr l') ∧ l'.length = l.length := by
  have := occurs_migrate d hp h
  refine ⟨migrateElements d l, by simpa only [migrate] using this, ?_⟩
  rw [migrateElements_eq, List.length_map]

/-- C08: every object keeps its keys in their order. -/
theorem objects_kept (d : String → String) {j : Json} {p : List Step} (hp : NotCost p)
    {ms : List (String × Json)} (h : Occurs j p (.obj ms)) :
    ∃ ms', Occurs (migrate d j) p (.obj ms') ∧ ms'.map Prod.fst = ms.map Prod.fst := by
  have := occurs_migrate d hp h
  refine ⟨migrateMembers d ms, by simpa only [migrate] using this, ?_⟩
  rw [migrateMembers_eq, List.map_map]
  rfl

/-- C08: no place is added outside costs. -/
theorem nothing_added (d : String → String) {j y : Json} {p : List Step} (hp : NotCost p)
    (h : Occurs (migrate d j) p y) : ∃ x, Occurs j p x := by
  obtain ⟨x, hx, _⟩ := occurs_of_migrate d hp h rfl
  exact ⟨x, hx⟩

theorem occurs_append {j : Json} {p q : List Step} {x : Json} :
    Occurs j (p ++ q) x ↔ ∃ y, Occurs j p y ∧ Occurs y q x := by
  constructor
  · induction p generalizing j with
    | nil => intro h; exact ⟨j, .here _, h⟩
    | cons s p ih =>
      intro h
      cases h with
      | member hm h => obtain ⟨y, h1, h2⟩ := ih h; exact ⟨y, .member hm h1, h2⟩
      | element hm h => obtain ⟨y, h1, h2⟩ := ih h; exact ⟨y, .element hm h1, h2⟩
  · rintro ⟨y, h1, h2⟩
    induction h1 with
    | here => exact h2
    | member hm _ ih => exact .member hm (ih h2)
    | element hm _ ih => exact .element hm (ih h2)

/-- C08: a cost that was a bare number becomes an amount in dollars, a text becomes null, and any other cost
is left exactly as it is, with everything inside it. -/
theorem costs (d : String → String) {j y : Json} {p : List Step} (hp : NotCost p) :
    Occurs (migrate d j) (p ++ [.key "cost"]) y ↔
      ∃ x, Occurs j (p ++ [.key "cost"]) x ∧
        match x with
        | .num n => y = .obj [("currency", .str "USD"), ("value", .num (d n))]
        | .str _ => y = .null
        | _ => y = x := by
  have body : ∀ x : Json, (match x with
        | .num n => y = .obj [("currency", .str "USD"), ("value", .num (d n))]
        | .str _ => y = .null
        | _ => y = x) ↔ y = migrateCost d x := by
    intro x; cases x <;> simp [migrateCost]
  simp only [body]
  constructor
  · intro h
    obtain ⟨o, ho, hc⟩ := occurs_append.mp h
    obtain ⟨o', ho', e⟩ := occurs_of_migrate d hp ho rfl
    cases hc with
    | member hm hh =>
      cases hh
      cases o' with
      | obj ms' =>
        simp only [migrate, Json.obj.injEq] at e
        rw [e, migrateMembers_eq, List.mem_map] at hm
        obtain ⟨⟨k', v'⟩, hm, he⟩ := hm
        simp only [Prod.mk.injEq] at he
        obtain ⟨rfl, he⟩ := he
        rw [if_pos rfl] at he
        exact ⟨v', occurs_append.mpr ⟨_, ho', .member hm (.here _)⟩, he.symm⟩
      | _ => simp [migrate] at e
  · rintro ⟨x, hx, rfl⟩
    obtain ⟨o, ho, hc⟩ := occurs_append.mp hx
    cases hc with
    | @member ms _ v _ _ hm hh =>
      cases hh
      refine occurs_append.mpr ⟨_, occurs_migrate d hp ho, ?_⟩
      have e : migrate d (.obj ms) = .obj (migrateMembers d ms) := by simp only [migrate]
      rw [e]
      refine .member (v := migrateCost d x) ?_ (.here _)
      rw [migrateMembers_eq, List.mem_map]
      exact ⟨("cost", x), hm, by simp⟩

mutual
theorem fixed (d : String → String) : ∀ j : Json, Current j → migrate d j = j
  | .str s, h => by
    simp only [migrate, Json.str.injEq]
    rcases migrateString_spec s with hl | hl
    · exact absurd ⟨_, hl⟩ (h.strings [] s (by simp [NotCost]) (.here _))
    · exact hl.2
  | .obj ms, h => by
    simp only [migrate, Json.obj.injEq]
    refine fixedMembers d ms (fun k v hm hk => ?_) (fun v hm => ?_)
    · refine ⟨fun p s hp ho => h.strings (.key k :: p) s ?_ (.member hm ho),
        fun p n hp ho => h.numbers (.key k :: p) n ?_ (.member hm ho),
        fun p n hp ho => h.texts (.key k :: p) n ?_ (.member hm ho)⟩ <;>
      · intro hc
        rcases List.mem_cons.mp hc with hc | hc
        · cases hc; exact hk rfl
        · exact hp hc
    · constructor
      · intro n hv; subst hv
        exact h.numbers [] n (by simp [NotCost]) (.member hm (.here _))
      · intro n hv; subst hv
        exact h.texts [] n (by simp [NotCost]) (.member hm (.here _))
  | .arr l, h => by
    simp only [migrate, Json.arr.injEq]
    refine fixedElements d l (fun i v hm => ?_)
    refine ⟨fun p s hp ho => h.strings (.index i :: p) s ?_ (.element hm ho),
        fun p n hp ho => h.numbers (.index i :: p) n ?_ (.element hm ho),
        fun p n hp ho => h.texts (.index i :: p) n ?_ (.element hm ho)⟩ <;>
      · intro hc
        rcases List.mem_cons.mp hc with hc | hc
        · cases hc
        · exact hp hc
  | .null, _ => by simp only [migrate]
  | .bool b, _ => by simp only [migrate]
  | .num n, _ => by simp only [migrate]

theorem fixedMembers (d : String → String) : ∀ ms : List (String × Json),
    (∀ k v, (k, v) ∈ ms → k ≠ "cost" → Current v) →
    (∀ v, ("cost", v) ∈ ms → (∀ n, v ≠ .num n) ∧ ∀ s, v ≠ .str s) → migrateMembers d ms = ms
  | [], _, _ => by simp only [migrateMembers]
  | (k, v) :: ms, h1, h2 => by
    have ih := fixedMembers d ms (fun k v hm => h1 k v (List.mem_cons_of_mem _ hm))
      (fun v hm => h2 v (List.mem_cons_of_mem _ hm))
    simp only [migrateMembers, ih]
    by_cases hk : k = "cost"
    · have := h2 v (by rw [← hk]; exact List.mem_cons_self)
      rw [if_pos hk]
      cases v with
      | num n => exact absurd rfl (this.1 n)
      | str s => exact absurd rfl (this.2 s)
      | _ => rfl
    · rw [if_neg hk, fixed d v (h1 k v List.mem_cons_self hk)]

theorem fixedElements (d : String → String) : ∀ l : List Json,
    (∀ (i : Nat) v, l[i]? = some v → Current v) → migrateElements d l = l
  | [], _ => by simp only [migrateElements]
  | v :: l, h => by
    simp only [migrateElements, fixed d v (h 0 v rfl), fixedElements d l (fun i v hv => h (i + 1) v hv)]
end

/-- C08: a document without legacy spelling and without legacy cost is not changed. -/
theorem current_unchanged (d : String → String) {j : Json} (h : Current j) : migrate d j = j := fixed d j h

/-- C08: a migrated document has no legacy spelling and no legacy cost left. -/
theorem migrated_is_current (d : String → String) (j : Json) : Current (migrate d j) := by
  refine ⟨fun p s hp h hl => ?_, fun p n hp h => ?_, fun p s hp h => ?_⟩
  · obtain ⟨r, _, hr | hr⟩ := (strings_respelled d hp s).mp h
    · obtain ⟨t, ht⟩ := hl
      exact find_none (targets_current _ hr) t ht
    · rw [hr.2] at hl; exact hr.1 hl
  · obtain ⟨x, _, hx⟩ := (costs d hp).mp h
    cases x <;> simp at hx
  · obtain ⟨x, _, hx⟩ := (costs d hp).mp h
    cases x <;> simp at hx

/-- A legacy document with a legacy string in an array and a bare cost. -/
example : migrate id (.obj [("cost", .num "1.5"), ("kinds", .arr [.str "Half Bridge", .str "pin"])]) =
    .obj [("cost", .obj [("currency", .str "USD"), ("value", .num "1.5")]),
      ("kinds", .arr [.str "halfBridge", .str "pin"])] := by
  have h1 : migrateString "Half Bridge" = "halfBridge" := by decide +kernel
  have h2 : migrateString "pin" = "pin" := by decide +kernel
  simp [migrate, migrateMembers, migrateElements, migrateCost, h1, h2]

/-- A path that is not through a cost, and a legacy spelling. -/
example : NotCost [.key "kinds", .index 0] ∧ Legacy "Half Bridge" := by
  refine ⟨by unfold NotCost; decide, "halfBridge", ?_⟩
  show _ ∈ table
  decide +kernel

/-- C08, a consequence worth knowing: the position of a string plays no role, so a free text that happens to
equal a legacy spelling is rewritten as well. -/
theorem free_text_rewritten (d : String → String) :
    migrate d (.obj [("name", .str "P1")]) = .obj [("name", .str "PD1")] := by
  have h : migrateString "P1" = "PD1" := by decide +kernel
  simp [migrate, migrateMembers, h]

/-- C08, a consequence worth knowing: what is inside a `cost` that is an array or an object is not migrated. -/
theorem nested_cost_not_migrated (d : String → String) :
    migrate d (.obj [("cost", .arr [.str "Basic"])]) = .obj [("cost", .arr [.str "Basic"])] := by
  simp [migrate, migrateMembers, migrateCost]

end Verif.Migration
