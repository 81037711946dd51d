import Mathlib.Tactic.Ring
import Mathlib.Tactic.Linarith
import Mathlib.Tactic.NormNum
import Mathlib.Tactic.FieldSimp
import Mathlib.Tactic.Positivity
import Mathlib.Algebra.BigOperators.Group.List.Basic
import Mathlib.Algebra.Order.Ring.Rat
import Mathlib.Data.List.Perm.Subperm
import Mathlib.Data.List.Nodup
import Verif.Images.Model

/-! # Properties of the images of a turn -/

set_option linter.unusedSimpArgs false
set_option linter.unusedVariables false
set_option linter.unusedSectionVars false

namespace Verif.Images

open Verif.Filters

variable {K : Type} [Field K] [LinearOrder K] [IsStrictOrderedRing K]

/-- Spec: the place `x` in the cell number `m` is got from `place` by reflections in the walls between cells, which
stand at each multiple of the size from the left edge. -/
inductive Reflected (left size place : K) : ℤ → K → Prop
  | itself : Reflected left size place 0 place
  | rightwards {m : ℤ} {x : K} : Reflected left size place m x →
      Reflected left size place (m + 1) (2 * (left + (m + 1) * size) - x)
  | leftwards {m : ℤ} {x : K} : Reflected left size place m x →
      Reflected left size place (m - 1) (2 * (left + m * size) - x)

theorem mirrored_even {size place : K} {m : ℤ} (h : m % 2 = 0) : mirrored size place m = m * size + place := if_pos h

theorem mirrored_odd {size place : K} {m : ℤ} (h : ¬ m % 2 = 0) : mirrored size place m = m * size + size - place :=
  if_neg h

theorem mirrored_succ (left size place : K) (m : ℤ) :
    mirrored size (place - left) (m + 1) + left = 2 * (left + (m + 1) * size) - (mirrored size (place - left) m + left) := by
  by_cases h : m % 2 = 0
  · rw [mirrored_even h, mirrored_odd (by omega)]; push_cast; ring
  · rw [mirrored_odd h, mirrored_even (by omega)]; push_cast; ring

theorem mirrored_pred (left size place : K) (m : ℤ) :
    mirrored size (place - left) (m - 1) + left = 2 * (left + m * size) - (mirrored size (place - left) m + left) := by
  have h := mirrored_succ left size place (m - 1)
  rw [sub_add_cancel] at h
  push_cast at h
  rw [sub_add_cancel] at h
  linarith

/-- **C429.** The place of an image is what reflections of the conductor in the walls of the window lead to, from cell
to cell, and nothing else is. -/
theorem reflected_iff (left size place : K) (m : ℤ) (x : K) :
    Reflected left size place m x ↔ x = mirrored size (place - left) m + left := by
  have fwd : ∀ {m : ℤ} {x : K}, Reflected left size place m x → x = mirrored size (place - left) m + left := by
    intro m x h
    induction h with
    | itself => rw [mirrored_even (by decide)]; push_cast; ring
    | rightwards _ ih => rw [mirrored_succ, ← ih]
    | leftwards _ ih => rw [mirrored_pred, ← ih]
  refine ⟨fwd, fun h => ?_⟩
  subst h
  induction m using Int.induction_on with
  | zero =>
    have e : mirrored size (place - left) 0 + left = place := by rw [mirrored_even (by decide)]; push_cast; ring
    rw [e]; exact .itself
  | succ i ih => rw [mirrored_succ]; exact .rightwards ih
  | pred i ih => rw [mirrored_pred]; exact .leftwards ih

example : Reflected (2 : ℚ) 10 5 (-1) (-1) := (reflected_iff _ _ _ _ _).mpr (by norm_num [mirrored])

/-- **C429.** The image of a conductor in the window is in the cell of its number. -/
theorem in_cell {left size place : K} (h0 : left ≤ place) (h1 : place ≤ left + size) {m : ℤ} {x : K}
    (h : Reflected left size place m x) : left + m * size ≤ x ∧ x ≤ left + (m + 1) * size := by
  rw [(reflected_iff _ _ _ _ _).mp h]
  by_cases e : m % 2 = 0
  · rw [mirrored_even e]; constructor <;> linarith
  · rw [mirrored_odd e]; constructor <;> linarith

theorem mem_span {most m : ℤ} : m ∈ span most ↔ -most ≤ m ∧ m ≤ most := by
  unfold span
  rw [List.mem_map]
  constructor
  · rintro ⟨i, hi, rfl⟩
    rw [List.mem_range] at hi
    omega
  · rintro ⟨h1, h2⟩
    exact ⟨(m + most).toNat, by rw [List.mem_range]; omega, by omega⟩

/-- **C429.** A crossing has one image for each pair of numbers within the mirroring dimension, got by reflections in
the walls, and no other; they are as many as the square of twice the dimension and one. -/
theorem lattice_spec (most : ℤ) (permeability sign : K) (f : Frame K) (p : K × K) :
    (∀ e : Filament K, e ∈ lattice most permeability sign f p ↔ ∃ m n : ℤ, |m| ≤ most ∧ |n| ≤ most ∧
      Reflected f.left f.width p.1 m e.x ∧ Reflected f.bottom f.height p.2 n e.y ∧
      e.value = sign * ((permeability - ((max |m| |n| : ℤ) : K)) / (permeability + ((max |m| |n| : ℤ) : K)))) ∧
    (0 ≤ most → ((lattice most permeability sign f p).length : ℤ) = (2 * most + 1) ^ 2) := by
  constructor
  · intro e
    unfold lattice
    rw [List.mem_flatMap]
    constructor
    · rintro ⟨m, hm, he⟩
      rw [List.mem_map] at he
      obtain ⟨n, hn, rfl⟩ := he
      exact ⟨m, n, abs_le.mpr (mem_span.mp hm), abs_le.mpr (mem_span.mp hn), (reflected_iff _ _ _ _ _).mpr rfl,
        (reflected_iff _ _ _ _ _).mpr rfl, rfl⟩
    · rintro ⟨m, n, hm, hn, hx, hy, hv⟩
      refine ⟨m, mem_span.mpr (abs_le.mp hm), List.mem_map.mpr ⟨n, mem_span.mpr (abs_le.mp hn), ?_⟩⟩
      obtain ⟨x, y, v⟩ := e
      simp only [image, Filament.mk.injEq]
      exact ⟨((reflected_iff _ _ _ _ _).mp hx).symm, ((reflected_iff _ _ _ _ _).mp hy).symm, hv.symm⟩
  · intro h
    have hl : ((span most).length : ℤ) = 2 * most + 1 := by
      unfold span; rw [List.length_map, List.length_range]; omega
    unfold lattice
    rw [List.length_flatMap]
    simp only [List.length_map, List.map_const', List.sum_replicate, nsmul_eq_mul]
    push_cast
    rw [hl]; ring

/-- **C430.** The conductor itself carries all of its current, and no image more. -/
theorem share_range {permeability : K} (h : 0 < permeability) (m n : ℤ) :
    share permeability 0 0 = 1 ∧ -1 < share permeability m n ∧ share permeability m n ≤ 1 ∧
      (share permeability m n = 1 ↔ m = 0 ∧ n = 0) := by
  have hk : (0 : K) ≤ ((max |m| |n| : ℤ) : K) := by exact_mod_cast le_trans (abs_nonneg m) (le_max_left _ _)
  have hp : 0 < permeability + ((max |m| |n| : ℤ) : K) := by linarith
  refine ⟨?_, ?_, ?_, ?_⟩
  · unfold share; simp [h.ne']
  · unfold share; rw [lt_div_iff₀ hp]; linarith
  · unfold share; rw [div_le_one hp]; linarith
  · unfold share
    rw [div_eq_one_iff_eq hp.ne']
    constructor
    · intro e
      have e' : ((max |m| |n| : ℤ) : K) = 0 := by linarith
      have e'' : max |m| |n| = 0 := by exact_mod_cast e'
      constructor
      · exact abs_eq_zero.mp (le_antisymm (e'' ▸ le_max_left _ _) (abs_nonneg m))
      · exact abs_eq_zero.mp (le_antisymm (e'' ▸ le_max_right _ _) (abs_nonneg n))
    · rintro ⟨rfl, rfl⟩; simp

/-- **C430.** Images in cells farther away carry less, and those of a core with more permeability carry more. -/
theorem share_mono {permeability : K} (h : 0 < permeability) {m n m' n' : ℤ} :
    (max |m| |n| < max |m'| |n'| → share permeability m' n' < share permeability m n) ∧
      ∀ more : K, permeability ≤ more → share permeability m n ≤ share more m n := by
  have hk : (0 : K) ≤ ((max |m| |n| : ℤ) : K) := by exact_mod_cast le_trans (abs_nonneg m) (le_max_left _ _)
  have hk' : (0 : K) ≤ ((max |m'| |n'| : ℤ) : K) := by exact_mod_cast le_trans (abs_nonneg m') (le_max_left _ _)
  constructor
  · intro e
    have e' : ((max |m| |n| : ℤ) : K) < ((max |m'| |n'| : ℤ) : K) := by exact_mod_cast e
    unfold share
    rw [div_lt_div_iff₀ (by linarith) (by linarith)]
    nlinarith
  · intro more hm
    unfold share
    rw [div_le_div_iff₀ (by linarith) (by linarith)]
    nlinarith

/-- **C430.** With the mirroring dimension one, which is the default, a core without permeability has no images: each
of them carries nothing. -/
theorem air_no_images_partial {sign : K} {f : Frame K} {p : K × K} {e : Filament K} (h : e ∈ lattice 1 1 sign f p) :
    e = ⟨p.1, p.2, sign⟩ ∨ e.value = 0 := by
  obtain ⟨m, n, hm, hn, hx, hy, hv⟩ := ((lattice_spec 1 1 sign f p).1 e).mp h
  by_cases h0 : m = 0 ∧ n = 0
  · left
    obtain ⟨rfl, rfl⟩ := h0
    obtain ⟨x, y, v⟩ := e
    rw [reflected_iff, mirrored_even (by decide)] at hx hy
    simp only at hx hy hv
    simp only [Filament.mk.injEq]
    refine ⟨?_, ?_, ?_⟩
    · rw [hx]; push_cast; ring
    · rw [hy]; push_cast; ring
    · rw [hv]; simp
  · right
    have e1 : max |m| |n| = 1 := by
      apply le_antisymm (max_le hm hn)
      by_contra hc
      have h1 : |m| = 0 := le_antisymm (by have := le_max_left |m| |n|; omega) (abs_nonneg m)
      have h2 : |n| = 0 := le_antisymm (by have := le_max_right |m| |n|; omega) (abs_nonneg n)
      exact h0 ⟨abs_eq_zero.mp h1, abs_eq_zero.mp h2⟩
    rw [hv, e1]; simp

/-- **C430.** With the mirroring dimension two it has: an image two cells away carries a third of the current, reversed. -/
theorem air_images : ∃ e ∈ lattice (K := ℚ) 2 1 1 ⟨0, 0, 10, 10⟩ (3, 5), e.value = -1 / 3 ∧ e.x = 23 ∧ e.y = 5 :=
  ⟨⟨23, 5, -1 / 3⟩, ((lattice_spec _ _ _ _ _).1 _).mpr ⟨2, 0, by decide, by decide,
    (reflected_iff _ _ _ _ _).mpr (by norm_num [mirrored]), (reflected_iff _ _ _ _ _).mpr (by norm_num [mirrored]),
    by norm_num⟩, rfl, rfl, rfl⟩

/-- Spec: what the points of a list carry together. -/
def total (fs : List (Filament K)) : K := (fs.map (·.value)).sum

theorem total_append (a b : List (Filament K)) : total (a ++ b) = total a + total b := by simp [total]

theorem sum_scaled (a : K) : ∀ l : List K, (l.map (a * ·)).sum = a * l.sum
  | [] => by simp
  | b :: l => by rw [List.map_cons, List.sum_cons, List.sum_cons, sum_scaled a l]; ring

theorem total_lattice (most : ℤ) (permeability sign : K) (f g : Frame K) (p q : K × K) :
    total (lattice most permeability sign f p) = sign * total (lattice most permeability 1 g q) := by
  have key : ∀ (s : K) (f : Frame K) (p : K × K), (lattice most permeability s f p).map (·.value) =
      ((span most).flatMap fun m => (span most).map fun n => s * share permeability m n) := by
    intro s f p
    unfold lattice
    rw [List.map_flatMap]
    simp only [List.map_map, Function.comp_def, image]
  have e : ((span most).flatMap fun m => (span most).map fun n => sign * share permeability m n) =
      ((span most).flatMap fun m => (span most).map fun n => 1 * share permeability m n).map (sign * ·) := by
    rw [List.map_flatMap]
    simp only [List.map_map, Function.comp_def, one_mul]
  unfold total
  rw [key, key, e]
  exact sum_scaled sign _

/-- **C431.** A turn that returns through a window of the core induces with points that carry nothing together, as
much there as back; one that returns in open air carries, of the images of the turn alone, the current less once. -/
theorem balanced {most : ℤ} {permeability column : K} {ws : List (Window K)} {p q : K × K} {fs : List (Filament K)}
    (h : inducing most permeability column ws p [q] = .value fs) :
    ((∃ w ∈ ws, (inside q w).isSome) → total fs = 0) ∧
      ((∀ w ∈ ws, inside q w = none) → ∃ alone, inducing most permeability column ws p [] = .value alone ∧
        fs = alone ++ [⟨q.1, q.2, -1⟩] ∧ total fs = total alone - 1) := by
  unfold inducing at h ⊢
  cases hw : windowOf p.1 ws with
  | throws => rw [hw] at h; simp [Outcome.bind] at h
  | undefined => rw [hw] at h; simp [Outcome.bind] at h
  | value w =>
    rw [hw] at h
    simp only [Outcome.bind] at h ⊢
    cases hf : frameOf column (decide (1 < ws.length)) w with
    | throws => rw [hf] at h; simp [Outcome.bind] at h
    | undefined => rw [hf] at h; simp [Outcome.bind] at h
    | value f =>
      rw [hf] at h
      simp only [Outcome.value.injEq, List.flatMap_cons, List.flatMap_nil, List.append_nil] at h ⊢
      subst h
      constructor
      · rintro ⟨v, hv, hs⟩
        unfold returning
        cases hg : ws.findSome? (inside q) with
        | none =>
          rw [List.findSome?_eq_none_iff] at hg
          rw [hg v hv] at hs
          simp at hs
        | some g =>
          simp only
          rw [total_append, total_lattice most permeability (-1) g f q p]
          ring
      · intro hn
        have hg : ws.findSome? (inside q) = none := List.findSome?_eq_none_iff.mpr hn
        refine ⟨_, rfl, ?_, ?_⟩
        · simp only [returning, hg]
        · simp only [returning, hg, total_append]
          simp [total]; ring

/-- **C431.** A window contains a crossing if it lies between its edges or on them, and a window without its centre or a
size contains none. -/
theorem inside_spec (q : K × K) (w : Window K) :
    (inside q w).isSome ↔ ∃ c a b, w.centre = some c ∧ w.width = some a ∧ w.height = some b ∧
      c.1 - a / 2 ≤ q.1 ∧ q.1 ≤ c.1 + a / 2 ∧ c.2 - b / 2 ≤ q.2 ∧ q.2 ≤ c.2 + b / 2 := by
  obtain ⟨c, a, b⟩ := w
  unfold inside
  cases c with
  | none => simp
  | some c =>
    cases a with
    | none => simp
    | some a =>
      cases b with
      | none => simp
      | some b =>
        simp only [Option.some.injEq]
        by_cases h : |q.1 - c.1| ≤ a / 2 ∧ |q.2 - c.2| ≤ b / 2
        · rw [if_pos h]
          obtain ⟨h1, h2⟩ := h
          rw [abs_le] at h1 h2
          exact iff_of_true rfl ⟨c, a, b, rfl, rfl, rfl, by linarith [h1.1], by linarith [h1.2], by linarith [h2.1],
            by linarith [h2.2]⟩
        · rw [if_neg h]
          refine iff_of_false (by simp) ?_
          rintro ⟨c', a', b', rfl, rfl, rfl, g1, g2, g3, g4⟩
          exact h ⟨abs_le.mpr ⟨by linarith, by linarith⟩, abs_le.mpr ⟨by linarith, by linarith⟩⟩

theorem nearest_kept (x : K) (best : Window K) (d : K) : ∀ ws : List (Window K),
    (∀ w ∈ ws, ∀ c, w.centre = some c → d ≤ |x - c.1|) → nearest x (some d) best ws = best
  | [], _ => rfl
  | w :: ws, h => by
    have ih := nearest_kept x best d ws fun v hv => h v (List.mem_cons_of_mem _ hv)
    unfold nearest
    cases hc : w.centre with
    | none => simpa using ih
    | some c =>
      cases hw : w.width with
      | none => simpa using ih
      | some a =>
        have := h w List.mem_cons_self c hc
        simp only [Option.all_some]
        rw [if_neg (by simpa using this)]
        exact ih

theorem nearest_found (x : K) {w : Window K} {c : K × K} {a : K} (hc : w.centre = some c) (ha : w.width = some a)
    (post : List (Window K)) (hpost : ∀ v ∈ post, ∀ e, v.centre = some e → |x - c.1| ≤ |x - e.1|) :
    ∀ (pre : List (Window K)) (far : Option K) (best : Window K),
      (∀ d, far = some d → |x - c.1| < d) → (∀ v ∈ pre, ∀ e, v.centre = some e → |x - c.1| < |x - e.1|) →
      nearest x far best (pre ++ w :: post) = w
  | [], far, best, hf, _ => by
    rw [List.nil_append]
    unfold nearest
    rw [hc, ha]
    simp only
    rw [if_pos]
    · exact nearest_kept x w _ post hpost
    · cases far with
      | none => rfl
      | some d => simpa using hf d rfl
  | v :: pre, far, best, hf, hpre => by
    have hp : ∀ v ∈ pre, ∀ e, v.centre = some e → |x - c.1| < |x - e.1| :=
      fun u hu => hpre u (List.mem_cons_of_mem _ hu)
    rw [List.cons_append]
    unfold nearest
    cases hvc : v.centre with
    | none => exact nearest_found x hc ha post hpost pre far best hf hp
    | some e =>
      cases hvw : v.width with
      | none => exact nearest_found x hc ha post hpost pre far best hf hp
      | some b =>
        simp only
        split_ifs
        · exact nearest_found x hc ha post hpost pre _ v
            (fun d hd => by
              simp only [Option.some.injEq] at hd
              exact hd ▸ hpre v List.mem_cons_self e hvc) hp
        · exact nearest_found x hc ha post hpost pre far best hf hp

/-- **C431.** The walls that a turn is mirrored in are those of the window that contains it, of windows of one width
side by side. -/
theorem own_window {x size : K} {pre post : List (Window K)} {w : Window K} {c : K × K}
    (hc : w.centre = some c) (ha : w.width = some size) (hin : |x - c.1| < size / 2)
    (apart : ∀ v ∈ pre ++ post, ∀ e, v.centre = some e → size ≤ |e.1 - c.1|) :
    windowOf x (pre ++ w :: post) = .value w := by
  have far : ∀ v ∈ pre ++ post, ∀ e, v.centre = some e → |x - c.1| < |x - e.1| := by
    intro v hv e he
    have h1 := apart v hv e he
    have h2 : |e.1 - c.1| ≤ |x - e.1| + |x - c.1| := by
      have := abs_sub_le e.1 x c.1
      rwa [abs_sub_comm e.1 x] at this
    linarith
  have key : nearest x none ((pre ++ w :: post).headD w) (pre ++ w :: post) = w :=
    nearest_found x hc ha post (fun v hv e he => (far v (List.mem_append_right _ hv) e he).le) pre none _
      (by simp) (fun v hv e he => far v (List.mem_append_left _ hv) e he)
  match hl : pre ++ w :: post with
  | [] => simp at hl
  | [u] =>
    have : w ∈ [u] := hl ▸ List.mem_append_right _ List.mem_cons_self
    rw [List.mem_singleton] at this
    rw [this]; rfl
  | u :: v :: us =>
    rw [hl] at key
    simp only [List.headD_cons] at key
    simp only [windowOf, key]

example : windowOf (K := ℚ) (-12) ([⟨some (10, 0), some 8, some 20⟩] ++ ⟨some (-10, 0), some 8, some 20⟩ :: []) =
    .value ⟨some (-10, 0), some 8, some 20⟩ :=
  own_window (c := (-10, 0)) (size := 8) rfl rfl (by norm_num [abs_lt]) (by
    intro v hv e he
    simp at hv
    subst hv
    simp at he
    subst he
    norm_num)

example : inducing (K := ℚ) 0 2000 4 [⟨some (10, 0), some 8, some 20⟩, ⟨some (-10, 0), some 8, some 20⟩] (9, 0) [(-9, 0)] =
    .value [⟨9, 0, 1⟩, ⟨-9, 0, -1⟩] := by decide +kernel

/-- **C429.** In a core with several windows the walls are those about the centre of the window that contains the turn. -/
theorem own_walls {most : ℤ} {permeability column a b : K} {pre post : List (Window K)} {p c : K × K}
    {fs : List (Filament K)} (several : pre ++ post ≠ []) (hin : |p.1 - c.1| < a / 2)
    (apart : ∀ v ∈ pre ++ post, ∀ e, v.centre = some e → a ≤ |e.1 - c.1|)
    (h : inducing most permeability column (pre ++ ⟨some c, some a, some b⟩ :: post) p [] = .value fs) (e : Filament K) :
    e ∈ fs ↔ ∃ m n : ℤ, |m| ≤ most ∧ |n| ≤ most ∧ Reflected (c.1 - a / 2) a p.1 m e.x ∧
      Reflected (c.2 - b / 2) b p.2 n e.y ∧ e.value = share permeability m n := by
  have hl : 1 < (pre ++ (⟨some c, some a, some b⟩ : Window K) :: post).length := by
    have : 0 < (pre ++ post).length := List.length_pos_iff.mpr several
    simp only [List.length_append, List.length_cons] at this ⊢
    omega
  unfold inducing at h
  rw [own_window rfl rfl hin apart, decide_eq_true hl] at h
  simp only [Outcome.bind, frameOf, List.flatMap_nil, List.append_nil, Outcome.value.injEq] at h
  rw [← h, (lattice_spec _ _ _ _ _).1]
  simp only [share, one_mul]

/-- **C429.** In a core with one window the walls are the side of the main column and that across the window, and those at
half the height above and below the middle. -/
theorem only_walls {most : ℤ} {permeability column a b : K} {centre : Option (K × K)} {p : K × K}
    {fs : List (Filament K)} (h : inducing most permeability column [⟨centre, some a, some b⟩] p [] = .value fs)
    (e : Filament K) :
    e ∈ fs ↔ ∃ m n : ℤ, |m| ≤ most ∧ |n| ≤ most ∧ Reflected (column / 2) a p.1 m e.x ∧
      Reflected (-(b / 2)) b p.2 n e.y ∧ e.value = share permeability m n := by
  unfold inducing at h
  simp only [windowOf, Outcome.bind, frameOf, List.length_singleton, lt_irrefl, decide_false, List.flatMap_nil,
    List.append_nil, Outcome.value.injEq] at h
  rw [← h, (lattice_spec _ _ _ _ _).1]
  simp only [share, one_mul, neg_div]

/-- **C431.** The second crossing has its images in the walls of the first window that contains it, reversed. -/
theorem return_walls {most : ℤ} {permeability a b : K} {pre post : List (Window K)} {q c : K × K}
    (hx : c.1 - a / 2 ≤ q.1 ∧ q.1 ≤ c.1 + a / 2) (hy : c.2 - b / 2 ≤ q.2 ∧ q.2 ≤ c.2 + b / 2)
    (first : ∀ v ∈ pre, inside q v = none) (e : Filament K) :
    e ∈ returning most permeability (pre ++ ⟨some c, some a, some b⟩ :: post) q ↔ ∃ m n : ℤ, |m| ≤ most ∧ |n| ≤ most ∧
      Reflected (c.1 - a / 2) a q.1 m e.x ∧ Reflected (c.2 - b / 2) b q.2 n e.y ∧ e.value = -share permeability m n := by
  have hi : inside q ⟨some c, some a, some b⟩ = some ⟨c.1 - a / 2, c.2 - b / 2, a, b⟩ := by
    simp only [inside]
    exact if_pos ⟨abs_le.mpr ⟨by linarith [hx.1], by linarith [hx.2]⟩, abs_le.mpr ⟨by linarith [hy.1], by linarith [hy.2]⟩⟩
  have hf : (pre ++ (⟨some c, some a, some b⟩ : Window K) :: post).findSome? (inside q) =
      some ⟨c.1 - a / 2, c.2 - b / 2, a, b⟩ := by
    rw [List.findSome?_append, List.findSome?_eq_none_iff.mpr first, List.findSome?_cons, hi]
    rfl
  unfold returning
  rw [hf]
  simp only
  rw [(lattice_spec _ _ _ _ _).1]
  simp only [share, neg_one_mul]

example : ∃ fs, inducing (K := ℚ) 1 2000 4 [⟨some (10, 0), some 8, some 20⟩] (9, 0) [] = .value fs ∧ fs.length = 9 :=
  ⟨_, rfl, by decide +kernel⟩

/-- **C432.** The image in a circle is on the ray of the conductor, at the distance whose product with that of the
conductor is the square of the radius. -/
theorem kelvin_spec {radius : K} (hr : 0 < radius) {p : K × K} (hp : 0 < p.1 * p.1 + p.2 * p.2) :
    (∃ s : K, 0 < s ∧ kelvin radius p = (s * p.1, s * p.2)) ∧
      ((kelvin radius p).1 * (kelvin radius p).1 + (kelvin radius p).2 * (kelvin radius p).2) *
        (p.1 * p.1 + p.2 * p.2) = (radius * radius) * (radius * radius) := by
  refine ⟨⟨radius * radius / (p.1 * p.1 + p.2 * p.2), by positivity, ?_⟩, ?_⟩
  · unfold kelvin; exact Prod.ext (mul_comm _ _) (mul_comm _ _)
  · have e : ∀ s : K, (p.1 * s * (p.1 * s) + p.2 * s * (p.2 * s)) * (p.1 * p.1 + p.2 * p.2) =
        (s * (p.1 * p.1 + p.2 * p.2)) * (s * (p.1 * p.1 + p.2 * p.2)) := fun s => by ring
    unfold kelvin
    simp only
    rw [e, div_mul_cancel₀ _ hp.ne']

/-- **C432.** The image of a conductor inside the circle is outside it, and the other way about. -/
theorem kelvin_sides {radius : K} (hr : 0 < radius) {p : K × K} (hp : 0 < p.1 * p.1 + p.2 * p.2) :
    (p.1 * p.1 + p.2 * p.2 < radius * radius ↔ radius * radius <
        (kelvin radius p).1 * (kelvin radius p).1 + (kelvin radius p).2 * (kelvin radius p).2) ∧
      (p.1 * p.1 + p.2 * p.2 = radius * radius → kelvin radius p = p) := by
  have h := (kelvin_spec hr hp).2
  have hR : 0 < radius * radius := mul_pos hr hr
  constructor
  · constructor
    · intro hlt
      by_contra hc
      push Not at hc
      have := mul_lt_mul_of_pos_left hlt hR
      have := mul_le_mul_of_nonneg_right hc hp.le
      linarith
    · intro hlt
      by_contra hc
      push Not at hc
      have h1 := mul_lt_mul_of_pos_right hlt hp
      have h2 := mul_le_mul_of_nonneg_left hc hR.le
      linarith
  · intro e
    unfold kelvin
    rw [e, div_self hR.ne', mul_one, mul_one]

example : kelvin (K := ℚ) 10 (3, 4) = (12, 16) := by decide +kernel

/-- **C432.** The crossings of a toroid in the bore and outside carry opposite currents, and each image the share of
its conductor that the permeability sets, of the same direction: a turn that is not at the axis carries nothing
together. -/
theorem toroid_balanced (most : ℤ) (permeability inner outer : K) {p q : K × K}
    (hp : 1 / 10 ^ 24 < p.1 * p.1 + p.2 * p.2) (hq : 1 / 10 ^ 24 < q.1 * q.1 + q.2 * q.2) :
    total (toroid most permeability inner outer p [q]) = 0 := by
  unfold toroid crossing
  by_cases h : 1 ≤ most
  · simp only [List.flatMap_cons, List.flatMap_nil, if_pos (And.intro h hp), if_pos (And.intro h hq)]
    simp [total]; ring
  · simp only [List.flatMap_cons, List.flatMap_nil, h, false_and, if_false]
    simp [total]

/-- **C432.** The points of a crossing: the conductor, and with mirroring its images in the two walls. -/
theorem crossing_spec {most : ℤ} (hm : 1 ≤ most) (permeability inner outer direction : K) {p : K × K}
    (hp : 1 / 10 ^ 24 < p.1 * p.1 + p.2 * p.2) (e : Filament K) :
    e ∈ crossing most permeability inner outer direction p ↔ e = ⟨p.1, p.2, direction⟩ ∨
      ∃ r, (r = inner ∨ r = outer) ∧ (e.x, e.y) = kelvin r p ∧
        e.value = direction * ((permeability - 1) / (permeability + 1)) := by
  unfold crossing
  rw [if_pos ⟨hm, hp⟩]
  obtain ⟨x, y, v⟩ := e
  simp only [List.mem_cons, List.not_mem_nil, or_false, Filament.mk.injEq]
  constructor
  · rintro (h | ⟨rfl, rfl, rfl⟩ | ⟨rfl, rfl, rfl⟩)
    · exact .inl h
    · exact .inr ⟨inner, .inl rfl, rfl, rfl⟩
    · exact .inr ⟨outer, .inr rfl, rfl, rfl⟩
  · rintro (h | ⟨r, rfl | rfl, h1, rfl⟩)
    · exact .inl h
    · rw [← h1]; exact .inr (.inl ⟨rfl, rfl, rfl⟩)
    · rw [← h1]; exact .inr (.inr ⟨rfl, rfl, rfl⟩)

theorem more_iff {keys : List Nat} (hn : keys.Nodup) {i : Nat} (hi : ∀ j < i, j ∈ keys) :
    i < keys.length ↔ ∃ k ∈ keys, i ≤ k := by
  constructor
  · intro h
    by_contra hc
    push Not at hc
    have : keys ⊆ List.range i := fun k hk => List.mem_range.mpr (hc k hk)
    have := (List.subperm_of_subset hn this).length_le
    rw [List.length_range] at this
    omega
  · rintro ⟨k, hk, hik⟩
    have hs : (k :: List.range i) ⊆ keys := by
      intro j hj
      rcases List.mem_cons.mp hj with rfl | hj
      · exact hk
      · exact hi j (List.mem_range.mp hj)
    have hd : (k :: List.range i).Nodup :=
      List.nodup_cons.mpr ⟨fun h => by have := List.mem_range.mp h; omega, List.nodup_range⟩
    have := (List.subperm_of_subset hd hs).length_le
    rw [List.length_cons, List.length_range] at this
    omega

theorem collect_from (full : Nat → Bool) (bound : Nat) : ∀ (d i : Nat) (keys : List Nat), keys.Nodup →
    (∀ j < i, j ∈ keys) → (∀ k ∈ keys, i ≤ k → k < bound) → bound ≤ i + d → ∀ steps, d < steps →
    ∃ out, collect full steps i keys = some out ∧ out.Pairwise (· < ·) ∧
      ∀ k, k ∈ out ↔ i ≤ k ∧ k ∈ keys ∧ full k = true
  | d, i, keys, hn, hi, hb, hd, 0, hs => by omega
  | 0, i, keys, hn, hi, hb, hd, steps + 1, hs => by
    have hno : ∀ k ∈ keys, ¬ i ≤ k := fun k hk h => by have := hb k hk h; omega
    refine ⟨[], ?_, List.Pairwise.nil, fun k => ?_⟩
    · unfold collect
      rw [if_neg]
      rw [more_iff hn hi]
      rintro ⟨k, hk, h⟩
      exact hno k hk h
    · constructor
      · intro h; simp at h
      · rintro ⟨h, hk, _⟩; exact absurd h (hno k hk)
  | d + 1, i, keys, hn, hi, hb, hd, steps + 1, hs => by
    unfold collect
    by_cases hl : i < keys.length
    · rw [if_pos hl]
      by_cases hm : i ∈ keys
      · rw [if_pos hm]
        obtain ⟨out, ho, hp, hk⟩ := collect_from full bound d (i + 1) keys hn
          (fun j hj => by rcases Nat.lt_succ_iff_lt_or_eq.mp hj with h | rfl; exacts [hi j h, hm])
          (fun k hk h => hb k hk (by omega)) (by omega) steps (by omega)
        rw [ho]
        refine ⟨_, rfl, ?_, fun k => ?_⟩
        · split_ifs
          · exact List.pairwise_cons.mpr ⟨fun k h => by have := ((hk k).mp h).1; omega, hp⟩
          · exact hp
        · by_cases hf : full i = true
          · simp only [hf, if_true, List.mem_cons, hk]
            constructor
            · rintro (rfl | ⟨h1, h2, h3⟩)
              · exact ⟨le_refl _, hm, hf⟩
              · exact ⟨by omega, h2, h3⟩
            · rintro ⟨h1, h2, h3⟩
              by_cases e : k = i
              · exact .inl e
              · exact .inr ⟨by omega, h2, h3⟩
          · simp only [if_neg hf]
            rw [hk]
            constructor
            · rintro ⟨h1, h2, h3⟩; exact ⟨by omega, h2, h3⟩
            · rintro ⟨h1, h2, h3⟩
              refine ⟨?_, h2, h3⟩
              by_contra hc
              have : k = i := by omega
              exact hf (this ▸ h3)
      · rw [if_neg hm]
        obtain ⟨out, ho, hp, hk⟩ := collect_from full bound d (i + 1) (i :: keys) (List.nodup_cons.mpr ⟨hm, hn⟩)
          (fun j hj => by
            rcases Nat.lt_succ_iff_lt_or_eq.mp hj with h | rfl
            exacts [List.mem_cons_of_mem _ (hi j h), List.mem_cons_self])
          (fun k hk h => by
            rcases List.mem_cons.mp hk with rfl | hk
            · omega
            · exact hb k hk (by omega)) (by omega) steps (by omega)
        refine ⟨out, ho, hp, fun k => ?_⟩
        rw [hk]
        constructor
        · rintro ⟨h1, h2, h3⟩
          rcases List.mem_cons.mp h2 with rfl | h2
          · omega
          · exact ⟨by omega, h2, h3⟩
        · rintro ⟨h1, h2, h3⟩
          have : k ≠ i := fun e => hm (e ▸ h2)
          exact ⟨by omega, List.mem_cons_of_mem _ h2, h3⟩
    · rw [if_neg hl]
      refine ⟨[], rfl, List.Pairwise.nil, fun k => ?_⟩
      constructor
      · intro h; simp at h
      · rintro ⟨h, hk, _⟩
        exact absurd ((more_iff hn hi).mpr ⟨k, hk, h⟩) hl

/-- **C433.** The fields of all harmonics that were selected and have data are returned, each once and in rising order,
however far apart the harmonics: the loop over the number of fields ends, and not before the last of them. -/
theorem all_harmonics (full : Nat → Bool) {keys : List Nat} (hn : keys.Nodup) :
    ∃ out, (∃ enough, ∀ steps, enough < steps → collect full steps 0 keys = some out) ∧ out.Pairwise (· < ·) ∧
      ∀ k, k ∈ out ↔ k ∈ keys ∧ full k = true := by
  have hb : ∀ k ∈ keys, 0 ≤ k → k < keys.sum + 1 := fun k hk _ => Nat.lt_succ_of_le (List.le_sum_of_mem hk)
  have key := fun steps hs => collect_from full (keys.sum + 1) (keys.sum + 1) 0 keys hn (by simp) hb (by omega) steps hs
  obtain ⟨out, ho, hp, hk⟩ := key (keys.sum + 2) (by omega)
  refine ⟨out, ⟨keys.sum + 1, fun steps hs => ?_⟩, hp, fun k => by rw [hk]; simp⟩
  obtain ⟨out', ho', hp', hk'⟩ := key steps hs
  rw [ho']
  congr 1
  have hperm : out'.Perm out :=
    (List.perm_ext_iff_of_nodup (hp'.imp (fun h => Nat.ne_of_lt h)) (hp.imp (fun h => Nat.ne_of_lt h))).mpr
      fun k => by rw [hk, hk']
  exact hperm.eq_of_pairwise (fun a b _ _ h1 h2 => by omega) hp' hp

example : collect (fun _ => true) 20 0 [1, 3, 5, 11] = some [1, 3, 5, 11] := by decide +kernel

end Verif.Images
