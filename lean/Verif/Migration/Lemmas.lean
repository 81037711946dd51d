import Verif.Migration.Model
import Mathlib.Data.List.Basic

/-! # Lemmas about the migration -/

namespace Verif.Migration

open Verif (Json)

theorem find_mem {l : List (String × String)} {s t : String} (h : find l s = some t) : (s, t) ∈ l := by
  induction l with
  | nil => cases h
  | cons a l ih =>
    obtain ⟨a, b⟩ := a
    simp only [find] at h
    split at h
    · rename_i e; subst e; cases h; exact List.mem_cons_self
    · exact List.mem_cons_of_mem _ (ih h)

theorem find_none {l : List (String × String)} {s : String} (h : find l s = none) (t : String) :
    (s, t) ∉ l := by
  induction l with
  | nil => simp
  | cons a l ih =>
    obtain ⟨a, b⟩ := a
    simp only [find] at h
    split at h
    · cases h
    · rename_i e
      intro hm
      rcases List.mem_cons.mp hm with hm | hm
      · cases hm; exact e rfl
      · exact ih h hm

/-- No current spelling is itself a legacy spelling: checked on the whole table. -/
theorem targets_current : ∀ e ∈ table, find table e.2 = none := by decide +kernel

/-- A legacy spelling has one current spelling: checked on the whole table. -/
theorem table_functional : ∀ e ∈ table, find table e.1 = some e.2 := by decide +kernel

theorem migrateString_idem (s : String) : migrateString (migrateString s) = migrateString s := by
  cases h : find table s with
  | none =>
    have e : migrateString s = s := by unfold migrateString; rw [h]
    rw [e, e]
  | some t =>
    have e : migrateString s = t := by unfold migrateString; rw [h]
    rw [e]
    unfold migrateString
    rw [targets_current _ (find_mem h)]

theorem migrateCost_idem (d : String → String) (j : Json) :
    migrateCost d (migrateCost d j) = migrateCost d j := by
  cases j <;> rfl

mutual
theorem migrate_idem (d : String → String) : ∀ j : Json, migrate d (migrate d j) = migrate d j
  | .str s => by simp only [migrate, migrateString_idem]
  | .obj ms => by simp only [migrate, migrateMembers_idem d ms]
  | .arr l => by simp only [migrate, migrateElements_idem d l]
  | .null => by simp only [migrate]
  | .bool b => by simp only [migrate]
  | .num n => by simp only [migrate]

theorem migrateMembers_idem (d : String → String) :
    ∀ ms : List (String × Json), migrateMembers d (migrateMembers d ms) = migrateMembers d ms
  | [] => by simp only [migrateMembers]
  | (k, v) :: ms => by
    simp only [migrateMembers, migrateMembers_idem d ms]
    by_cases h : k = "cost"
    · simp only [if_pos h, migrateCost_idem]
    · simp only [if_neg h, migrate_idem d v]

theorem migrateElements_idem (d : String → String) :
    ∀ l : List Json, migrateElements d (migrateElements d l) = migrateElements d l
  | [] => by simp only [migrateElements]
  | v :: l => by simp only [migrateElements, migrateElements_idem d l, migrate_idem d v]
end

theorem migrateElements_eq (d : String → String) (l : List Json) :
    migrateElements d l = l.map (migrate d) := by
  induction l with
  | nil => simp [migrateElements]
  | cons a l ih => simp [migrateElements, ih]

theorem migrateMembers_eq (d : String → String) (ms : List (String × Json)) :
    migrateMembers d ms =
      ms.map (fun m => (m.1, if m.1 = "cost" then migrateCost d m.2 else migrate d m.2)) := by
  induction ms with
  | nil => simp [migrateMembers]
  | cons a l ih => obtain ⟨k, v⟩ := a; simp [migrateMembers, ih]

end Verif.Migration
