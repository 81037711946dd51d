import Verif.WindingLosses.OhmicLemmas

/-! # Lemmas: totals of losses -/

set_option linter.unusedSimpArgs false

namespace Verif.WindingLosses

/-! ## Sums by key -/

theorem sum_single {κ : Type} [DecidableEq κ] (k : κ) (v : ℚ) : ∀ ks : List κ, ks.Nodup → k ∈ ks →
    (ks.map fun k' => if k = k' then v else 0).sum = v
  | [], _, h => by simp at h
  | a :: ks, hn, h => by
    rw [List.nodup_cons] at hn
    rw [List.map_cons, List.sum_cons]
    by_cases hk : k = a
    · subst hk
      have : (ks.map fun k' => if k = k' then v else 0).sum = 0 := by
        apply List.sum_eq_zero
        intro y hy
        obtain ⟨z, hz, rfl⟩ := List.mem_map.1 hy
        rw [if_neg]; intro e; subst e; exact hn.1 hz
      rw [if_pos rfl, this, add_zero]
    · rw [if_neg hk, zero_add]
      exact sum_single k v ks hn.2 (by simpa [hk] using h)

theorem sum_by_key {α κ : Type} [DecidableEq κ] (key : α → κ) (f : α → ℚ) (ks : List κ) (hn : ks.Nodup) :
    ∀ l : List α, (∀ a ∈ l, key a ∈ ks) →
      (ks.map fun k => ((l.filter fun a => decide (key a = k)).map f).sum).sum = (l.map f).sum
  | [], _ => by simp
  | a :: l, h => by
    have ih := sum_by_key key f ks hn l fun b hb => h b (by simp [hb])
    have hs := sum_single (key a) (f a) ks hn (h a (by simp))
    rw [List.map_cons, List.sum_cons, ← ih, ← hs, ← List.sum_map_add]
    congr 1
    apply List.map_congr_left
    intro k _
    by_cases hk : key a = k
    · simp [List.filter_cons, hk]
    · simp [List.filter_cons, hk]

/-! ## Harmonics added -/

theorem addHarmonics_sum {a b l : List (ℚ × ℚ)} (h : addHarmonics a b = .ok l) : sumOf l = sumOf a + sumOf b := by
  induction a generalizing b l with
  | nil =>
    cases b with
    | nil => simp only [addHarmonics, Res.ok.injEq] at h; subst h; simp [sumOf]
    | cons y b => simp [addHarmonics] at h
  | cons x a ih =>
    obtain ⟨f, x⟩ := x
    cases b with
    | nil => simp only [addHarmonics, Res.ok.injEq] at h; subst h; simp [sumOf]
    | cons y b =>
      obtain ⟨g, y⟩ := y
      obtain ⟨m, hm, h⟩ := Res.bind_ok (r := addHarmonics a b) h
      simp only [Res.ok.injEq] at h; subst h
      have := ih hm
      simp only [sumOf, List.map_cons, List.sum_cons] at this ⊢
      linarith

theorem foldl_sum (ls : List (List (ℚ × ℚ))) : ∀ (r : Res (List (ℚ × ℚ))) (l : List (ℚ × ℚ)),
    ls.foldl (fun acc x => acc.bind fun a => addHarmonics a x) r = .ok l →
      ∃ a : List (ℚ × ℚ), r = .ok a ∧ sumOf l = sumOf a + (ls.map sumOf).sum := by
  induction ls with
  | nil => intro r l h; exact ⟨l, h, by simp⟩
  | cons x ls ih =>
    intro r l h
    obtain ⟨a, ha, hs⟩ := ih _ l h
    obtain ⟨b, hb, hab⟩ := Res.bind_ok ha
    exact ⟨b, hb, by rw [hs, addHarmonics_sum hab, List.map_cons, List.sum_cons]; ring⟩

theorem combineHarmonics_sum {ls : List (List (ℚ × ℚ))} {l : List (ℚ × ℚ)} (h : combineHarmonics ls = .ok l) :
    sumOf l = (ls.map sumOf).sum := by
  cases ls with
  | nil => simp only [combineHarmonics, Res.ok.injEq] at h; subst h; simp [sumOf]
  | cons x ls =>
    obtain ⟨a, ha, hs⟩ := foldl_sum (x :: ls) _ l h
    simp only [Res.ok.injEq] at ha; subst ha
    rw [hs]
    have : sumOf (x.map fun fl => (fl.1, (0 : ℚ))) = 0 := by
      unfold sumOf; apply List.sum_eq_zero
      intro y hy; simp only [List.map_map, List.mem_map] at hy; obtain ⟨_, _, rfl⟩ := hy; rfl
    rw [this, zero_add]

/-! ## Elements combined -/

theorem mapM_sum {β : Type} {f : Element → Res β} {g : β → ℚ} {k : Element → ℚ} {es : List Element} {l : List β}
    (h : List.Forall₂ (fun a b => f a = .ok b) es l) (hk : ∀ (e : Element) (b : β), f e = .ok b → g b = k e) :
    (l.map g).sum = (es.map k).sum := by
  induction h with
  | nil => rfl
  | cons hab _ ih => rw [List.map_cons, List.sum_cons, List.map_cons, List.sum_cons, ih, hk _ _ hab]

theorem combine_total {blank : ℚ} {es : List Element} {e : Element} (h : combine blank es = .ok e) (hne : es ≠ []) :
    elementTotal e = elementsTotal es := by
  unfold combine at h
  obtain ⟨os, h1, h⟩ := Res.bind_ok h
  obtain ⟨ss, h2, h⟩ := Res.bind_ok h
  obtain ⟨ps, h3, h⟩ := Res.bind_ok h
  obtain ⟨s, h4, h⟩ := Res.bind_ok h
  obtain ⟨p, h5, h⟩ := Res.bind_ok h
  simp only [Res.ok.injEq] at h; subst h
  have e1 : (os.map id).sum = (es.map fun e => e.ohmic.getD 0).sum := mapM_sum (Res.mapM_ok h1) (by
    intro e b hb; cases ho : e.ohmic with
    | none => simp [ho] at hb
    | some x => simp only [ho, Res.ok.injEq] at hb; subst hb; rfl)
  have e2 : (ss.map sumOf).sum = (es.map fun e => sumOf (e.skin.getD [])).sum := mapM_sum (Res.mapM_ok h2) (by
    intro e b hb; cases ho : e.skin with
    | none => simp [ho] at hb
    | some x => simp only [ho, Res.ok.injEq] at hb; subst hb; rfl)
  have e3 : (ps.map sumOf).sum = (es.map fun e => sumOf (e.proximity.getD [])).sum := mapM_sum (Res.mapM_ok h3) (by
    intro e b hb; cases ho : e.proximity with
    | none => simp [ho] at hb
    | some x => simp only [ho, Res.ok.injEq] at hb; subst hb; rfl)
  rw [List.map_id] at e1
  have hL : elementTotal ⟨some (if es = [] then blank else os.sum), some s, some p⟩ = os.sum + sumOf s + sumOf p := by
    simp [elementTotal, hne]
  rw [hL, combineHarmonics_sum h4, combineHarmonics_sum h5, e1, e2, e3, ← List.sum_map_add, ← List.sum_map_add]
  rfl

/-- The elements of a list of names add to those of all turns. -/
theorem named_total {blank : ℚ} {turns : List Turn} {perTurn : List Element} {nameOf : Turn → Option String}
    {names : List String} {l : List Element} (hlen : perTurn.length = turns.length)
    (h : Res.mapM (fun n => (named turns perTurn nameOf n).bind (combine blank)) names = .ok l) (hn : names.Nodup)
    (hall : ∀ t ∈ turns, ∃ n ∈ names, nameOf t = some n) (hsome : ∀ n ∈ names, ∃ t ∈ turns, nameOf t = some n) :
    elementsTotal l = elementsTotal perTurn := by
  have hF := Res.mapM_ok h
  have hone : ∀ (n : String) (e : Element), n ∈ names → (named turns perTurn nameOf n).bind (combine blank) = .ok e →
      elementTotal e = (((turns.zip perTurn).filter fun x => decide (nameOf x.1 = some n)).map
        fun x => elementTotal x.2).sum := by
    intro n e hmem he
    obtain ⟨es, h1, h2⟩ := Res.bind_ok he
    unfold named at h1
    split at h1
    · simp at h1
    · simp only [Res.ok.injEq] at h1
      have hes : es ≠ [] := by
        obtain ⟨t, ht, htn⟩ := hsome n hmem
        obtain ⟨k, hk, hke⟩ := List.mem_iff_getElem.1 ht
        have hk' : k < perTurn.length := by omega
        have hm : (t, perTurn[k]) ∈ turns.zip perTurn := by
          apply List.mem_of_getElem? (i := k)
          exact zip_get (by rw [List.getElem?_eq_getElem hk, hke]) (List.getElem?_eq_getElem hk')
        rw [← h1]
        intro hnil
        have : perTurn[k] ∈ ((turns.zip perTurn).filter fun x => nameOf x.1 == some n).map fun x => x.2 :=
          List.mem_map.2 ⟨_, List.mem_filter.2 ⟨hm, by simp [htn]⟩, rfl⟩
        rw [hnil] at this; simp at this
      have hb : (fun x : Turn × Element => nameOf x.1 == some n) = fun x => decide (nameOf x.1 = some n) := by
        funext x; rw [beq_eq_decide]
      rw [combine_total h2 hes, ← h1, elementsTotal, List.map_map, hb]
      rfl
  have hsum : elementsTotal l = (names.map fun n => (((turns.zip perTurn).filter fun x => decide (nameOf x.1 = some n)).map
      fun x => elementTotal x.2).sum).sum := by
    clear h hn hall hsome
    unfold elementsTotal
    induction hF with
    | nil => rfl
    | cons hab _ ih =>
      rw [List.map_cons, List.sum_cons, List.map_cons, List.sum_cons, hone _ _ (by simp) hab,
        ih fun n e hm => hone n e (by simp [hm])]
  rw [hsum]
  have := sum_by_key (fun x : Turn × Element => nameOf x.1) (fun x => elementTotal x.2) (names.map some)
    (hn.map (Option.some_injective _)) (turns.zip perTurn) (by
      intro x hx
      obtain ⟨n, h1, h2⟩ := hall x.1 (List.of_mem_zip hx).1
      rw [h2]; exact List.mem_map.2 ⟨n, h1, rfl⟩)
  rw [List.map_map] at this
  rw [show (names.map fun n => (((turns.zip perTurn).filter fun x => decide (nameOf x.1 = some n)).map
      fun x => elementTotal x.2).sum) = names.map ((fun k => (((turns.zip perTurn).filter fun a =>
        decide (nameOf a.1 = k)).map fun x => elementTotal x.2).sum) ∘ some) from rfl, this]
  unfold elementsTotal
  congr 1
  rw [show (fun x : Turn × Element => elementTotal x.2) = elementTotal ∘ Prod.snd from rfl, ← List.map_map,
    List.map_snd_zip (by omega)]

end Verif.WindingLosses
